import Verif.Spec.Display
import Verif.Proofs.Expr
/-! # The printed text determines the expression up to regrouping (helper for C47) -/

namespace SymRust
variable {F : Type}

inductive Fn where
  | sin | cos | exp | ln
deriving DecidableEq

def Fn.app : Fn → Expr F → Expr F
  | .sin => Expr.sin
  | .cos => Expr.cos
  | .exp => Expr.exp
  | .ln => Expr.ln

def Fn.name : Fn → List Char
  | .sin => ['s', 'i', 'n']
  | .cos => ['c', 'o', 's']
  | .exp => ['e', 'x', 'p']
  | .ln => ['l', 'n']

def BinOp.chr : BinOp → Char
  | .add => '+'
  | .sub => '-'
  | .mul => '*'
  | .div => '/'
  | .pow => '^'

theorem BinOp.chr_inj {o o' : BinOp} (h : o.chr = o'.chr) : o = o' := by
  cases o <;> cases o' <;> first | rfl | (exact absurd h (by decide))

theorem BinOp.level_le (o : BinOp) : 2 ≤ o.level ∧ o.level ≤ 4 := by cases o <;> decide

/-- Well-formed expressions as a simple tree type. -/
inductive PT (F : Type) where
  | leaf (o : AstOperand F)
  | neg (a : PT F)
  | fn (k : Fn) (a : PT F)
  | bin (o : BinOp) (a b : PT F)

namespace PT

def toExpr : PT F → Expr F
  | .leaf o => .ofOperand o
  | .neg a => a.toExpr.neg
  | .fn k a => k.app a.toExpr
  | .bin o a b => o.app a.toExpr b.toExpr

theorem exists_toExpr {P : SmartNum F → Prop} {e : Expr F} (h : WF P e) : ∃ t : PT F, t.toExpr = e := by
  induction h with
  | num n => exact ⟨.leaf (.num n), rfl⟩
  | var v => exact ⟨.leaf (.var v), rfl⟩
  | neg a _ ih => obtain ⟨t, rfl⟩ := ih; exact ⟨.neg t, rfl⟩
  | add a b _ _ i j => obtain ⟨t, rfl⟩ := i; obtain ⟨u, rfl⟩ := j; exact ⟨.bin .add t u, rfl⟩
  | sub a b _ _ i j => obtain ⟨t, rfl⟩ := i; obtain ⟨u, rfl⟩ := j; exact ⟨.bin .sub t u, rfl⟩
  | mul a b _ _ i j => obtain ⟨t, rfl⟩ := i; obtain ⟨u, rfl⟩ := j; exact ⟨.bin .mul t u, rfl⟩
  | div a b _ _ i j => obtain ⟨t, rfl⟩ := i; obtain ⟨u, rfl⟩ := j; exact ⟨.bin .div t u, rfl⟩
  | pow a b _ _ i j => obtain ⟨t, rfl⟩ := i; obtain ⟨u, rfl⟩ := j; exact ⟨.bin .pow t u, rfl⟩
  | sin a _ ih => obtain ⟨t, rfl⟩ := ih; exact ⟨.fn .sin t, rfl⟩
  | cos a _ ih => obtain ⟨t, rfl⟩ := ih; exact ⟨.fn .cos t, rfl⟩
  | exp a _ ih => obtain ⟨t, rfl⟩ := ih; exact ⟨.fn .exp t, rfl⟩
  | ln a _ ih => obtain ⟨t, rfl⟩ := ih; exact ⟨.fn .ln t, rfl⟩

theorem toExpr_inj {t u : PT F} (h : t.toExpr = u.toExpr) : t = u := by
  induction t generalizing u with
  | leaf o =>
    cases u with
    | leaf o' => simp only [toExpr, Expr.ofOperand] at h; cases h; rfl
    | neg _ => cases h
    | fn k _ => cases k <;> cases h
    | bin k _ _ => cases k <;> cases h
  | neg a ih =>
    cases u with
    | leaf o' => cases h
    | neg b => simp only [toExpr, Expr.neg] at h; injection h with _ h; injection h with h; rw [ih h]
    | fn k _ => cases k <;> (simp only [toExpr, Fn.app] at h; exact absurd h (by simp [Expr.neg, Expr.sin, Expr.cos, Expr.exp, Expr.ln, Expr.genOpNeg, Expr.genOpSin, Expr.genOpCos, Expr.genOpExp, Expr.genOpLn]))
    | bin k _ _ => cases k <;> (simp only [toExpr, BinOp.app] at h; exact absurd h (by simp [Expr.neg, Expr.add, Expr.sub, Expr.mul, Expr.div, Expr.pow]))
  | fn k a ih =>
    cases u with
    | leaf o' => cases k <;> cases h
    | neg _ => cases k <;> (simp only [toExpr, Fn.app] at h; exact absurd h (by simp [Expr.neg, Expr.sin, Expr.cos, Expr.exp, Expr.ln, Expr.genOpNeg, Expr.genOpSin, Expr.genOpCos, Expr.genOpExp, Expr.genOpLn]))
    | fn k' b =>
      have : k = k' ∧ a.toExpr = b.toExpr := by
        cases k <;> cases k' <;> simp_all [toExpr, Fn.app, Expr.sin, Expr.cos, Expr.exp, Expr.ln, Expr.genOpSin, Expr.genOpCos, Expr.genOpExp, Expr.genOpLn]
      obtain ⟨rfl, h'⟩ := this
      rw [ih h']
    | bin k' _ _ => cases k <;> cases k' <;> simp [toExpr, Fn.app, BinOp.app, Expr.sin, Expr.cos, Expr.exp, Expr.ln, Expr.add, Expr.sub, Expr.mul, Expr.div, Expr.pow] at h
  | bin k a b i j =>
    cases u with
    | leaf o' => cases k <;> cases h
    | neg _ => cases k <;> (simp only [toExpr, BinOp.app] at h; exact absurd h (by simp [Expr.neg, Expr.add, Expr.sub, Expr.mul, Expr.div, Expr.pow]))
    | fn k' _ => cases k <;> cases k' <;> simp [toExpr, Fn.app, BinOp.app, Expr.sin, Expr.cos, Expr.exp, Expr.ln, Expr.add, Expr.sub, Expr.mul, Expr.div, Expr.pow] at h
    | bin k' c d =>
      have : k = k' ∧ a.toExpr = c.toExpr ∧ b.toExpr = d.toExpr := by
        cases k <;> cases k' <;> simp_all [toExpr, BinOp.app, Expr.add, Expr.sub, Expr.mul, Expr.div, Expr.pow, Expr.genOpAdd, Expr.genOpSub, Expr.genOpMul, Expr.genOpDiv, Expr.genOpPow]
      obtain ⟨rfl, h1, h2⟩ := this
      rw [i h1, j h2]

/-! ## Text -/

def prio : PT F → Nat
  | .leaf _ => 6
  | .neg _ => 1
  | .fn _ _ => 5
  | .bin o _ _ => o.level

def par (p : Nat) (t : PT F) (s : List Char) : List Char := if t.prio < p then '(' :: (s ++ [')']) else s

variable [FloatOps F]

def leafText (o : AstOperand F) : List Char :=
  match o.display with
  | .ok s => s.toList
  | .panic => []

def body : PT F → List Char
  | .leaf o => leafText o
  | .neg a => '-' :: par 1 a a.body
  | .fn k a => k.name ++ par 5 a a.body
  | .bin o a b => par o.level a a.body ++ ' ' :: o.chr :: ' ' :: par o.level b b.body

/-- The text of `t` inside an operator of priority `p`. -/
def text (p : Nat) (t : PT F) : List Char := par p t t.body

theorem operand_display_total (o : AstOperand F) : ∃ s, o.display = .ok s := by
  cases o with
  | var v => exact ⟨_, rfl⟩
  | num n =>
    unfold AstOperand.display SmartNum.display
    dsimp only
    split
    · cases ht : n.tag <;> simp_all [ConstType.display]
    · exact ⟨_, rfl⟩

theorem raw_un (op : AstOperator) {a : Expr F} {s : String} (h : a.toStringRaw op.priority = .ok s) (p : Nat) :
    (Expr.mk (.operator op) [a]).toStringRaw p =
      .ok (if op.priority < p then "(" ++ (op.symbol ++ s) ++ ")" else op.symbol ++ s) := by
  simp only [Expr.toStringRaw, Expr.toStringRawList, Expr.index, List.length_cons, List.length_nil]
  simp only [List.getElem?_cons_zero, h]
  rw [if_neg (by decide)]
  simp only [Res.bind, Res.ok_bind]
  split_ifs <;> rfl

theorem raw_bin (op : AstOperator) {a b : Expr F} {s t : String} (h : a.toStringRaw op.priority = .ok s)
    (h' : b.toStringRaw op.priority = .ok t) (p : Nat) :
    (Expr.mk (.operator op) [a, b]).toStringRaw p =
      .ok (if op.priority < p then "(" ++ (s ++ " " ++ op.symbol ++ " " ++ t) ++ ")"
        else s ++ " " ++ op.symbol ++ " " ++ t) := by
  simp only [Expr.toStringRaw, Expr.toStringRawList, Expr.index, List.length_cons, List.length_nil]
  simp only [List.getElem?_cons_zero, List.getElem?_cons_succ, h, h']
  simp only [Nat.reduceAdd, if_true, Res.bind, Res.ok_bind]
  split_ifs <;> rfl

theorem toStringRaw_text (t : PT F) (p : Nat) (hp : p ≤ 5) :
    t.toExpr.toStringRaw p = .ok (String.ofList (t.text p)) := by
  induction t generalizing p with
  | leaf o =>
    obtain ⟨s, hs⟩ := operand_display_total o
    simp only [toExpr, Expr.ofOperand, Expr.toStringRaw, hs, text, par, body, leafText, prio]
    rw [if_neg (by omega)]; simp
  | neg a ih =>
    refine (raw_un Expr.genOpNeg (ih 1 (by omega)) p).trans (congrArg _ ?_)
    have e : (PT.neg a).text p = par p a.neg ('-' :: a.text 1) := rfl
    rw [e]
    generalize a.text 1 = s
    change (if 1 < p then _ else _) = String.ofList (if 1 < p then _ else _)
    split_ifs <;> simp [Expr.genOpNeg, String.ext_iff]
  | fn k a ih =>
    have := ih 5 (by omega)
    have e : (PT.fn k a).text p = par p (.fn k a) (k.name ++ a.text 5) := rfl
    rw [e]
    generalize a.text 5 = s at *
    cases k
    · refine (raw_un Expr.genOpSin this p).trans (congrArg _ ?_)
      change (if 5 < p then _ else _) = String.ofList (if 5 < p then _ else _)
      split_ifs <;> simp [Expr.genOpSin, Fn.name, String.ext_iff]
    · refine (raw_un Expr.genOpCos this p).trans (congrArg _ ?_)
      change (if 5 < p then _ else _) = String.ofList (if 5 < p then _ else _)
      split_ifs <;> simp [Expr.genOpCos, Fn.name, String.ext_iff]
    · refine (raw_un Expr.genOpExp this p).trans (congrArg _ ?_)
      change (if 5 < p then _ else _) = String.ofList (if 5 < p then _ else _)
      split_ifs <;> simp [Expr.genOpExp, Fn.name, String.ext_iff]
    · refine (raw_un Expr.genOpLn this p).trans (congrArg _ ?_)
      change (if 5 < p then _ else _) = String.ofList (if 5 < p then _ else _)
      split_ifs <;> simp [Expr.genOpLn, Fn.name, String.ext_iff]
  | bin o a b i j =>
    have h1 := i o.level (by cases o <;> decide)
    have h2 := j o.level (by cases o <;> decide)
    have e : (PT.bin o a b).text p = par p (.bin o a b) (a.text o.level ++ ' ' :: o.chr :: ' ' :: b.text o.level) := rfl
    rw [e]
    generalize a.text o.level = s at *
    generalize b.text o.level = s' at *
    cases o
    · refine (raw_bin Expr.genOpAdd h1 h2 p).trans (congrArg _ ?_)
      change (if 2 < p then _ else _) = String.ofList (if 2 < p then _ else _)
      split_ifs <;> simp [Expr.genOpAdd, BinOp.chr, String.ext_iff]
    · refine (raw_bin Expr.genOpSub h1 h2 p).trans (congrArg _ ?_)
      change (if 2 < p then _ else _) = String.ofList (if 2 < p then _ else _)
      split_ifs <;> simp [Expr.genOpSub, BinOp.chr, String.ext_iff]
    · refine (raw_bin Expr.genOpMul h1 h2 p).trans (congrArg _ ?_)
      change (if 3 < p then _ else _) = String.ofList (if 3 < p then _ else _)
      split_ifs <;> simp [Expr.genOpMul, BinOp.chr, String.ext_iff]
    · refine (raw_bin Expr.genOpDiv h1 h2 p).trans (congrArg _ ?_)
      change (if 4 < p then _ else _) = String.ofList (if 4 < p then _ else _)
      split_ifs <;> simp [Expr.genOpDiv, BinOp.chr, String.ext_iff]
    · refine (raw_bin Expr.genOpPow h1 h2 p).trans (congrArg _ ?_)
      change (if 4 < p then _ else _) = String.ofList (if 4 < p then _ else _)
      split_ifs <;> simp [Expr.genOpPow, BinOp.chr, String.ext_iff]

theorem display_text (t : PT F) : t.toExpr.display = .ok (String.ofList t.body) := by
  rw [Expr.display, toStringRaw_text t 0 (by omega), text, par, if_neg (by omega)]

/-! ## Left-grouped trees -/

/-- What the reading proof needs to know about a leaf. -/
def Leafy (w : List Char) : Prop :=
  w ≠ [] ∧ (∀ c ∈ w, c ≠ ' ' ∧ c ≠ '(' ∧ c ≠ ')') ∧ (∀ c ∈ w.head?, c ≠ '-') ∧ ∀ k : Fn, ¬ k.name <+: w

/-- Leaves are in `S`. -/
def Over (S : AstOperand F → Prop) : PT F → Prop
  | .leaf o => S o
  | .neg a => a.Over S
  | .fn _ a => a.Over S
  | .bin _ a b => a.Over S ∧ b.Over S

def Left : PT F → Prop
  | .leaf _ => True
  | .neg a => a.Left
  | .fn _ a => a.Left
  | .bin o a b => a.Left ∧ b.Left ∧ b.prio ≠ o.level

/-- The chain of operators of level `p` at the root. -/
def spine (p : Nat) : PT F → PT F × List (BinOp × PT F)
  | .bin o a b => if o.level = p then ((spine p a).1, (spine p a).2 ++ [(o, b)]) else (.bin o a b, [])
  | t => (t, [])

def unspine (h : PT F) (l : List (BinOp × PT F)) : PT F := l.foldl (fun a x => .bin x.1 a x.2) h

omit [FloatOps F] in
theorem unspine_spine (p : Nat) (t : PT F) : unspine (spine p t).1 (spine p t).2 = t := by
  induction t with
  | bin o a b i _ =>
    unfold spine
    split_ifs with h
    · simp only [unspine, List.foldl_append, List.foldl_cons, List.foldl_nil]
      rw [unspine] at i; rw [i]
    · rfl
  | _ => rfl

def tail (p : Nat) (l : List (BinOp × PT F)) : List Char :=
  l.flatMap fun x => ' ' :: x.1.chr :: ' ' :: x.2.text p

theorem text_succ {p : Nat} {t : PT F} (h : t.prio ≠ p) : t.text p = t.text (p + 1) := by
  unfold text par
  by_cases h1 : t.prio < p
  · rw [if_pos h1, if_pos (by omega)]
  · rw [if_neg h1, if_neg (by omega)]

theorem spine_spec {S : AstOperand F → Prop} {p : Nat} {t : PT F} (hp : 2 ≤ p) (hp4 : p ≤ 4) (hl : t.Left) (hs : t.Over S) :
    t.text p = (spine p t).1.text (p + 1) ++ tail (p + 1) (spine p t).2 ∧
    (spine p t).1.Left ∧ (spine p t).1.Over S ∧
    ∀ x ∈ (spine p t).2, x.1.level = p ∧ x.2.Left ∧ x.2.Over S := by
  induction t with
  | bin o a b i _ =>
    unfold spine
    split_ifs with h
    · obtain ⟨i1, i2, i3, i4⟩ := i hl.1 hs.1
      refine ⟨?_, i2, i3, ?_⟩
      · have e : (PT.bin o a b).text p = a.text p ++ ' ' :: o.chr :: ' ' :: b.text p := by
          have : (PT.bin o a b).text p = par p (.bin o a b) (a.text o.level ++ ' ' :: o.chr :: ' ' :: b.text o.level) := rfl
          rw [this, par, h, if_neg (by simp [prio, h])]
        rw [e, i1, tail, tail, List.flatMap_append, text_succ (t := b) (by rw [← h]; exact hl.2.2)]
        simp
      · intro x hx
        rcases List.mem_append.1 hx with hx | hx
        · exact i4 x hx
        · cases List.mem_singleton.1 hx
          exact ⟨h, hl.2.1, hs.2⟩
    · exact ⟨by rw [text_succ (by simpa [prio] using h)]; simp [tail], hl, hs, by simp⟩
  | leaf o => exact ⟨by rw [text_succ (by simp only [prio]; omega)]; simp [spine, tail], hl, hs, by simp [spine]⟩
  | neg a _ => exact ⟨by rw [text_succ (by simp only [prio]; omega)]; simp [spine, tail], hl, hs, by simp [spine]⟩
  | fn k a _ => exact ⟨by rw [text_succ (by simp only [prio]; omega)]; simp [spine, tail], hl, hs, by simp [spine]⟩

/-! ## Reading -/

/-- What may follow an operand printed at level `p`. -/
def Stop (p : Nat) (r : List Char) : Prop :=
  r = [] ∨ (∃ s, r = ')' :: s) ∨ ∃ (o : BinOp) (s : List Char), r = ' ' :: o.chr :: s ∧ o.level < p

theorem Stop.mono {p q : Nat} {r : List Char} (h : Stop p r) (hpq : p ≤ q) : Stop q r := by
  rcases h with h | h | ⟨o, s, h, hl⟩
  · exact .inl h
  · exact .inr (.inl h)
  · exact .inr (.inr ⟨o, s, h, hl.trans_le hpq⟩)

theorem Stop.head {p : Nat} {r : List Char} (h : Stop p r) : ∀ c ∈ r.head?, c = ' ' ∨ c = ')' := by
  rcases h with rfl | ⟨s, rfl⟩ | ⟨o, s, rfl, -⟩ <;> simp

theorem Stop.tail {p : Nat} {l : List (BinOp × PT F)} {r : List Char} (h : Stop p r)
    (hl : ∀ x ∈ l, x.1.level = p) : Stop (p + 1) (PT.tail (p + 1) l ++ r) := by
  cases l with
  | nil => exact h.mono (Nat.le_succ p)
  | cons x l => exact .inr (.inr ⟨x.1, _, rfl, by rw [hl x (by simp)]; omega⟩)

theorem word_inj {w w' r r' : List Char} (hw : ∀ c ∈ w, c ≠ ' ' ∧ c ≠ ')') (hw' : ∀ c ∈ w', c ≠ ' ' ∧ c ≠ ')')
    (hr : ∀ c ∈ r.head?, c = ' ' ∨ c = ')') (hr' : ∀ c ∈ r'.head?, c = ' ' ∨ c = ')') (h : w ++ r = w' ++ r') :
    w = w' ∧ r = r' := by
  rcases List.append_eq_append_iff.1 h with ⟨a, h1, h2⟩ | ⟨a, h1, h2⟩
  · cases a with
    | nil => simpa [eq_comm] using And.intro h1 h2
    | cons c a =>
      subst h1 h2
      rcases hr c (by simp) with rfl | rfl
      · exact absurd rfl (hw' ' ' (by simp)).1
      · exact absurd rfl (hw' ')' (by simp)).2
  · cases a with
    | nil => simpa [eq_comm] using And.intro h1 h2
    | cons c a =>
      subst h1 h2
      rcases hr' c (by simp) with rfl | rfl
      · exact absurd rfl (hw ' ' (by simp)).1
      · exact absurd rfl (hw ')' (by simp)).2

theorem Fn.name_word (k : Fn) : ∀ c ∈ k.name, c ≠ ' ' ∧ c ≠ ')' := by cases k <;> decide

theorem Fn.name_inj {k k' : Fn} {a b : List Char} (h : k.name ++ a = k'.name ++ b) : k = k' ∧ a = b := by
  cases k <;> cases k' <;> simp_all [Fn.name]

/-- A function application is not a leaf. -/
theorem fn_ne_leaf {k : Fn} {a w r : List Char} (hw : Leafy w) (hr : ∀ c ∈ r.head?, c = ' ' ∨ c = ')') :
    k.name ++ a ≠ w ++ r := by
  intro h
  rcases List.append_eq_append_iff.1 h with ⟨b, h1, -⟩ | ⟨b, h1, h2⟩
  · exact hw.2.2.2 k ⟨b, h1.symm⟩
  · cases b with
    | nil => exact hw.2.2.2 k ⟨[], by simpa using h1⟩
    | cons c b =>
      subst h2
      have hc := Fn.name_word k c (by rw [h1]; simp)
      rcases hr c (by simp) with rfl | rfl
      · exact hc.1 rfl
      · exact hc.2 rfl

theorem text_head {S : AstOperand F → Prop} (hS : ∀ o, S o → Leafy (leafText o)) {p : Nat} (hp : 2 ≤ p) {t : PT F}
    (ht : t.Over S) : ∃ c s, t.text p = c :: s ∧ c ≠ '-' := by
  have wrap : ∀ (t : PT F) p, (∃ c s, t.body = c :: s ∧ c ≠ '-') → ∃ c s, t.text p = c :: s ∧ c ≠ '-' := by
    rintro t p ⟨c, s, h, hc⟩
    unfold text par
    split_ifs
    · exact ⟨_, _, rfl, by decide⟩
    · exact ⟨c, s, h, hc⟩
  induction t generalizing p with
  | leaf o =>
    refine wrap _ _ ?_
    obtain ⟨h1, -, h2, -⟩ := hS o ht
    obtain ⟨c, s, h⟩ := List.exists_cons_of_ne_nil h1
    exact ⟨c, s, h, h2 c (by rw [h]; rfl)⟩
  | neg a ih =>
    refine ⟨'(', body (.neg a) ++ [')'], ?_, by decide⟩
    rw [text, par, if_pos (by simp only [prio]; omega)]
  | fn k a ih => refine wrap _ _ ?_; cases k <;> exact ⟨_, _, rfl, by decide⟩
  | bin o a b i _ =>
    refine wrap _ _ ?_
    obtain ⟨c, s, h, hc⟩ := i (p := o.level) o.level_le.1 ht.1
    rw [body, ← text, h]
    exact ⟨c, _, rfl, hc⟩

/-- The text of an operand, followed by something that cannot continue it, determines the operand. -/
theorem text_inj {S : AstOperand F → Prop} (hS : ∀ o, S o → Leafy (leafText o))
    (hinj : ∀ o o', S o → S o' → leafText o = leafText o' → o = o') (n : Nat) :
    ∀ (p : Nat) (t t' : PT F) (r r' : List Char), 1 ≤ p → p ≤ 5 → (t.text p).length * 6 + (5 - p) ≤ n →
      t.Left → t'.Left → t.Over S → t'.Over S → Stop p r → Stop p r' → t.text p ++ r = t'.text p ++ r' →
      t = t' ∧ r = r' := by
  induction n using Nat.strong_induction_on with
  | _ n IH =>
  intro p t t' r r' hp1 hp5 hn ht ht' hs hs' hr hr' h
  -- the chain levels
  have chain : 2 ≤ p → p ≤ 4 → t = t' ∧ r = r' := by
    intro h2 h4
    obtain ⟨a1, a2, a3, a4⟩ := spine_spec h2 h4 ht hs
    obtain ⟨b1, b2, b3, b4⟩ := spine_spec h2 h4 ht' hs'
    have et := unspine_spine p t
    have et' := unspine_spine p t'
    generalize spine p t = x at *
    generalize spine p t' = y at *
    obtain ⟨hd, l⟩ := x
    obtain ⟨hd', l'⟩ := y
    dsimp only at *
    rw [a1, b1, List.append_assoc, List.append_assoc] at h
    rw [a1, List.length_append] at hn
    obtain ⟨rfl, h'⟩ := IH ((hd.text (p + 1)).length * 6 + (5 - (p + 1))) (by omega) (p + 1) hd hd' _ _ (by omega)
      (by omega) le_rfl a2 b2 a3 b3 (hr.tail fun x hx => (a4 x hx).1) (hr'.tail fun x hx => (b4 x hx).1) h
    have key : ∀ (l l' : List (BinOp × PT F)), (PT.tail (p + 1) l).length * 6 ≤ n →
        (∀ x ∈ l, x.1.level = p ∧ x.2.Left ∧ x.2.Over S) → (∀ x ∈ l', x.1.level = p ∧ x.2.Left ∧ x.2.Over S) →
        PT.tail (p + 1) l ++ r = PT.tail (p + 1) l' ++ r' → l = l' ∧ r = r' := by
      intro l
      induction l with
      | nil =>
        intro l' _ _ hl' h
        cases l' with
        | nil => exact ⟨rfl, h⟩
        | cons x l' =>
          exfalso
          rcases hr with rfl | ⟨s, rfl⟩ | ⟨o, s, rfl, ho⟩
          · simp [PT.tail] at h
          · simp [PT.tail] at h
          · simp only [PT.tail, List.flatMap_nil, List.nil_append, List.flatMap_cons, List.cons_append,
              List.cons.injEq] at h
            have := BinOp.chr_inj h.2.1
            rw [this, (hl' x (by simp)).1] at ho
            exact lt_irrefl _ ho
      | cons x l ih =>
        intro l' hlen hl hl' h
        cases l' with
        | nil =>
          exfalso
          rcases hr' with rfl | ⟨s, rfl⟩ | ⟨o, s, rfl, ho⟩
          · simp [PT.tail] at h
          · simp [PT.tail] at h
          · simp only [PT.tail, List.flatMap_nil, List.nil_append, List.flatMap_cons, List.cons_append,
              List.cons.injEq] at h
            have := BinOp.chr_inj h.2.1
            rw [← this, (hl x (by simp)).1] at ho
            exact lt_irrefl _ ho
        | cons x' l' =>
          obtain ⟨o, b⟩ := x
          obtain ⟨o', b'⟩ := x'
          simp only [PT.tail, List.flatMap_cons, List.cons_append, List.cons.injEq, List.append_assoc, true_and] at h
          obtain ⟨ho, h⟩ := h
          cases BinOp.chr_inj ho
          simp only [PT.tail, List.flatMap_cons, List.cons_append, List.length_cons, List.length_append] at hlen
          rw [← PT.tail] at hlen
          rw [← PT.tail, ← PT.tail] at h
          obtain ⟨-, bl, bo⟩ := hl (o, b) (by simp)
          obtain ⟨-, bl', bo'⟩ := hl' (o, b') (by simp)
          have hlm : ∀ x ∈ l, x.1.level = p ∧ x.2.Left ∧ x.2.Over S := fun x hx => hl x (by simp [hx])
          have hlm' : ∀ x ∈ l', x.1.level = p ∧ x.2.Left ∧ x.2.Over S := fun x hx => hl' x (by simp [hx])
          obtain ⟨rfl, h2⟩ := IH ((b.text (p + 1)).length * 6 + (5 - (p + 1))) (by omega) (p + 1) b b' _ _ (by omega)
            (by omega) le_rfl bl bl' bo bo' (hr.tail fun x hx => (hlm x hx).1) (hr'.tail fun x hx => (hlm' x hx).1) h
          obtain ⟨rfl, h3⟩ := ih l' (by omega) hlm hlm' h2
          exact ⟨rfl, h3⟩
    obtain ⟨rfl, hrr⟩ := key l l' (by omega) a4 b4 h'
    exact ⟨et.symm.trans et', hrr⟩
  have cases5 : ∀ t : PT F, t.Over S → (∃ o, t = .leaf o ∧ t.text 5 = leafText o ∧ S o) ∨ (∃ k a, t = .fn k a ∧ t.text 5 = k.name ++ a.text 5) ∨
      (t.text 5 = '(' :: (t.text 1 ++ [')'])) := by
    intro t ht
    cases t with
    | leaf o => exact .inl ⟨o, rfl, rfl, ht⟩
    | fn k a => exact .inr (.inl ⟨k, a, rfl, rfl⟩)
    | neg a => exact .inr (.inr rfl)
    | bin o a b => right; right; cases o <;> rfl
  obtain rfl | hp : p = 1 ∨ 2 ≤ p := by omega
  · -- unary minus
    have nonneg : ∀ t : PT F, (∃ a, t = .neg a) ∨ t.text 1 = t.text 2 := by
      intro t
      cases t with
      | neg a => exact .inl ⟨a, rfl⟩
      | _ => exact .inr (text_succ (by simp only [prio]; first | omega | (have := BinOp.level_le ‹_›; omega)))
    rcases nonneg t with ⟨a, rfl⟩ | e1 <;> rcases nonneg t' with ⟨a', rfl⟩ | e2
    · have e : ∀ a : PT F, (PT.neg a).text 1 = '-' :: a.text 1 := fun _ => rfl
      rw [e, e] at h
      rw [e] at hn
      simp only [List.length_cons] at hn
      obtain ⟨rfl, h2⟩ := IH ((a.text 1).length * 6 + (5 - 1)) (by omega) 1 a a' r r' le_rfl (by omega) le_rfl ht ht' hs hs' hr hr'
        (List.cons.inj h).2
      exact ⟨rfl, h2⟩
    · obtain ⟨c, s, hc, hne⟩ := text_head hS (le_refl 2) hs'
      rw [e2, hc] at h
      exact absurd (List.cons.inj h).1.symm hne
    · obtain ⟨c, s, hc, hne⟩ := text_head hS (le_refl 2) hs
      rw [e1, hc] at h
      exact absurd (List.cons.inj h).1 hne
    · rw [e1, e2] at h
      rw [e1] at hn
      exact IH ((t.text 2).length * 6 + (5 - 2)) (by omega) 2 t t' r r' (by omega) (by omega) le_rfl ht ht' hs hs'
        (hr.mono (by omega)) (hr'.mono (by omega)) h
  obtain h4 | rfl : p ≤ 4 ∨ p = 5 := by omega
  · exact chain hp h4
  have leafHead : ∀ o, S o → ∀ x y, leafText o ++ x ≠ '(' :: y := by
    intro o ho x y h
    obtain ⟨h1, h2, -, -⟩ := hS o ho
    obtain ⟨c, s, hc⟩ := List.exists_cons_of_ne_nil h1
    rw [hc] at h
    exact (h2 c (by rw [hc]; simp)).2.1 (List.cons.inj h).1
  have fnHead : ∀ (k : Fn) x y, k.name ++ x ≠ '(' :: y := by
    intro k x y h; cases k <;> simp [Fn.name] at h
  have word : ∀ o, S o → ∀ c ∈ leafText o, c ≠ ' ' ∧ c ≠ ')' := fun o ho c hc =>
    ⟨((hS o ho).2.1 c hc).1, ((hS o ho).2.1 c hc).2.2⟩
  rcases cases5 t hs with ⟨o, rfl, e1, so⟩ | ⟨k, a, rfl, e1⟩ | e1 <;>
    rcases cases5 t' hs' with ⟨o', rfl, e2, so'⟩ | ⟨k', a', rfl, e2⟩ | e2 <;> rw [e1, e2] at h
  · obtain ⟨h1, h2⟩ := word_inj (word o so) (word o' so') hr.head hr'.head h
    rw [hinj o o' so so' h1]; exact ⟨rfl, h2⟩
  · rw [List.append_assoc] at h
    exact absurd h.symm (fn_ne_leaf (hS o so) hr.head)
  · exact absurd h (leafHead o so _ _)
  · rw [List.append_assoc] at h
    exact absurd h (fn_ne_leaf (hS o' so') hr'.head)
  · rw [List.append_assoc, List.append_assoc] at h
    obtain ⟨rfl, h2⟩ := Fn.name_inj h
    rw [e1, List.length_append] at hn
    have : 1 ≤ k.name.length := by cases k <;> decide
    obtain ⟨rfl, h3⟩ := IH ((a.text 5).length * 6 + (5 - 5)) (by omega) 5 a a' r r' (by omega) le_rfl le_rfl ht ht' hs hs' hr hr' h2
    exact ⟨rfl, h3⟩
  · rw [List.append_assoc] at h
    exact absurd h (fnHead k _ _)
  · exact absurd h.symm (leafHead o' so' _ _)
  · rw [List.append_assoc] at h
    exact absurd h.symm (fnHead k' _ _)
  · rw [e1, List.length_cons, List.length_append] at hn
    simp only [List.cons_append, List.append_assoc, List.cons.injEq, true_and, List.nil_append] at h
    simp only [List.length_cons, List.length_nil] at hn
    obtain ⟨rfl, h2⟩ := IH ((t.text 1).length * 6 + (5 - 1)) (by omega) 1 t t' _ _ le_rfl (by omega) le_rfl ht ht' hs hs'
      (.inr (.inl ⟨_, rfl⟩)) (.inr (.inl ⟨_, rfl⟩)) h
    exact ⟨rfl, (List.cons.inj h2).2⟩

end PT
end SymRust
