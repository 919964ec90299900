import Mathlib.Logic.Function.Iterate
import Mathlib.Tactic
import Verif.Model.Expr
/-! # Termination of `limit`, part 1: trees over abstract numbers

Trees over an abstract set of numbers on which the operations are total; `agg` and `der` follow the rules of
`num_aggregate` and `derivative` (Proofs/EndLink.lean proves the correspondence). -/

namespace SymRust.End
open Classical

set_option linter.unusedSectionVars false

/-- Numbers as far as `num_aggregate` looks at them. -/
class NumAlg (V : Type) where
  zero : V
  one : V
  e : V
  isZ : V → Prop
  isO : V → Prop
  isPi : V → Prop
  isE : V → Prop
  neg : V → V
  add : V → V → V
  sub : V → V → V
  mul : V → V → V
  div : V → V → V
  isZ_zero : isZ zero
  isO_one : isO one
  not_isZ : ∀ v, isO v → ¬ isZ v
  not_isE : ∀ v, isO v → ¬ isE v
  add_Z : ∀ u v, isZ u → isZ v → isZ (add u v)
  sub_Z : ∀ u v, isZ u → isZ v → isZ (sub u v)
  mul_Z : ∀ u v, isZ u ∨ isZ v → isZ (mul u v)
  div_Z : ∀ u v, isZ u → isZ (div u v)

/-- Expression trees. -/
inductive Tm (V : Type) where
  | num (v : V)
  | var (y : Variable)
  | neg (a : Tm V)
  | add (a b : Tm V)
  | sub (a b : Tm V)
  | mul (a b : Tm V)
  | div (a b : Tm V)
  | sin (a : Tm V)
  | cos (a : Tm V)
  | exp (a : Tm V)
  | ln (a : Tm V)
  | pow (a b : Tm V)

variable {V : Type}
open Tm

namespace Tm

def isNum : Tm V → Prop
  | .num _ => True
  | _ => False
def isNeg : Tm V → Prop
  | .neg _ => True
  | _ => False

@[simp] theorem isNum_num (v : V) : (num v).isNum := trivial
@[simp] theorem not_isNum_var (y : Variable) : ¬ (var y : Tm V).isNum := id
@[simp] theorem not_isNum_neg (a : Tm V) : ¬ a.neg.isNum := id
@[simp] theorem not_isNum_add (a b : Tm V) : ¬ (a.add b).isNum := id
@[simp] theorem not_isNum_sub (a b : Tm V) : ¬ (a.sub b).isNum := id
@[simp] theorem not_isNum_mul (a b : Tm V) : ¬ (a.mul b).isNum := id
@[simp] theorem not_isNum_div (a b : Tm V) : ¬ (a.div b).isNum := id
@[simp] theorem not_isNum_sin (a : Tm V) : ¬ a.sin.isNum := id
@[simp] theorem not_isNum_cos (a : Tm V) : ¬ a.cos.isNum := id
@[simp] theorem not_isNum_exp (a : Tm V) : ¬ a.exp.isNum := id
@[simp] theorem not_isNum_ln (a : Tm V) : ¬ a.ln.isNum := id
@[simp] theorem not_isNum_pow (a b : Tm V) : ¬ (a.pow b).isNum := id
@[simp] theorem not_isNeg_num (v : V) : ¬ (num v).isNeg := id
@[simp] theorem not_isNeg_var (y : Variable) : ¬ (var y : Tm V).isNeg := id
@[simp] theorem isNeg_neg (a : Tm V) : a.neg.isNeg := trivial
@[simp] theorem not_isNeg_add (a b : Tm V) : ¬ (a.add b).isNeg := id
@[simp] theorem not_isNeg_sub (a b : Tm V) : ¬ (a.sub b).isNeg := id
@[simp] theorem not_isNeg_mul (a b : Tm V) : ¬ (a.mul b).isNeg := id
@[simp] theorem not_isNeg_div (a b : Tm V) : ¬ (a.div b).isNeg := id
@[simp] theorem not_isNeg_sin (a : Tm V) : ¬ a.sin.isNeg := id
@[simp] theorem not_isNeg_cos (a : Tm V) : ¬ a.cos.isNeg := id
@[simp] theorem not_isNeg_exp (a : Tm V) : ¬ a.exp.isNeg := id
@[simp] theorem not_isNeg_ln (a : Tm V) : ¬ a.ln.isNeg := id
@[simp] theorem not_isNeg_pow (a b : Tm V) : ¬ (a.pow b).isNeg := id

theorem isNum.eq {a : Tm V} (h : a.isNum) : ∃ v, a = num v := by cases a <;> first | exact ⟨_, rfl⟩ | cases h
theorem isNeg.eq {a : Tm V} (h : a.isNeg) : ∃ c, a = neg c := by cases a <;> first | exact ⟨_, rfl⟩ | cases h

/-- `limit` can only answer such a tree: outside sines and cosines it panics on everything but sums, products and
quotients. -/
def Clean : Tm V → Prop
  | .num _ => True
  | .var _ => True
  | .add a b => a.Clean ∧ b.Clean
  | .mul a b => a.Clean ∧ b.Clean
  | .div a b => a.Clean ∧ b.Clean
  | .sin _ => True
  | .cos _ => True
  | .neg _ | .sub _ _ | .exp _ | .ln _ | .pow _ _ => False

def size : Tm V → ℕ
  | .num _ => 1
  | .var _ => 1
  | .neg a => a.size + 1
  | .add a b => a.size + b.size + 1
  | .sub a b => a.size + b.size + 1
  | .mul a b => a.size + b.size + 1
  | .div a b => a.size + b.size + 1
  | .sin a => a.size + 1
  | .cos a => a.size + 1
  | .exp a => a.size + 1
  | .ln a => a.size + 1
  | .pow a b => a.size + b.size + 1

theorem size_pos (a : Tm V) : 0 < a.size := by cases a <;> simp [size]

/-- Nesting of sines and cosines. -/
def lvl : Tm V → ℕ
  | .num _ => 0
  | .var _ => 0
  | .neg a => a.lvl
  | .add a b => max a.lvl b.lvl
  | .sub a b => max a.lvl b.lvl
  | .mul a b => max a.lvl b.lvl
  | .div a b => max a.lvl b.lvl
  | .sin a => a.lvl + 1
  | .cos a => a.lvl + 1
  | .exp a => a.lvl
  | .ln a => a.lvl
  | .pow a b => max a.lvl b.lvl

variable [NumAlg V]
open NumAlg (zero one isZ isO isPi isE)

/-- The number 0. -/
def Z : Tm V → Prop
  | .num v => isZ v
  | _ => False
/-- The number 1. -/
def O : Tm V → Prop
  | .num v => isO v
  | _ => False

@[simp] theorem Z_num (v : V) : (num v).Z ↔ isZ v := Iff.rfl
@[simp] theorem O_num (v : V) : (num v).O ↔ isO v := Iff.rfl
theorem Z.isNum {a : Tm V} (h : a.Z) : a.isNum := by cases a <;> trivial
theorem O.isNum {a : Tm V} (h : a.O) : a.isNum := by cases a <;> trivial
theorem O.not_Z {a : Tm V} (h : a.O) : ¬ a.Z := by
  obtain ⟨v, rfl⟩ := h.isNum.eq; exact NumAlg.not_isZ v h
theorem Z_zero : (num zero : Tm V).Z := NumAlg.isZ_zero
theorem O_one : (num one : Tm V).O := NumAlg.isO_one

noncomputable def negR : Tm V → Tm V
  | .num v => .num (NumAlg.neg v)
  | .neg c => c
  | a => a.neg

noncomputable def addR (a b : Tm V) : Tm V :=
  match a with
  | .num x => match b with
    | .num y => .num (NumAlg.add x y)
    | b => if isZ x then b else (num x).add b
  | a => match b with
    | .num y => if isZ y then a else a.add (num y)
    | b => a.add b

noncomputable def subR (a b : Tm V) : Tm V :=
  match a with
  | .num x => match b with
    | .num y => .num (NumAlg.sub x y)
    | b => if isZ x then b.neg else (num x).sub b
  | a => match b with
    | .num y => if isZ y then a else a.sub (num y)
    | b => a.sub b

noncomputable def mulR (a b : Tm V) : Tm V :=
  match a with
  | .num x => match b with
    | .num y => .num (NumAlg.mul x y)
    | b => if isZ x then num zero else if isO x then b else (num x).mul b
  | a => match b with
    | .num y => if isZ y then num zero else if isO y then a else a.mul (num y)
    | b => a.mul b

noncomputable def divR (a b : Tm V) : Tm V :=
  match a with
  | .num x => match b with
    | .num y => .num (NumAlg.div x y)
    | b => if isZ x then num zero else (num x).div b
  | a => a.div b

noncomputable def sinR : Tm V → Tm V
  | .num x => if isZ x ∨ isPi x then num zero else (num x).sin
  | a => a.sin

noncomputable def cosR : Tm V → Tm V
  | .num x => if isZ x ∨ isPi x then num one else (num x).cos
  | a => a.cos

noncomputable def expR : Tm V → Tm V
  | .num x => if isZ x then num one else if isO x then num NumAlg.e else (num x).exp
  | .ln c => c
  | a => a.exp

noncomputable def lnR : Tm V → Tm V
  | .num x => if isE x then num one else if isO x then num zero else (num x).ln
  | .exp c => c
  | a => a.ln

noncomputable def powR (a b : Tm V) : Tm V :=
  match a with
  | .num x => if isZ x then num one else if isO x then b else (num x).pow b
  | .ln c => c
  | a => a.pow b

noncomputable def agg : Tm V → Tm V
  | .num v => .num v
  | .var y => .var y
  | .neg a => negR a.agg
  | .add a b => addR a.agg b.agg
  | .sub a b => subR a.agg b.agg
  | .mul a b => mulR a.agg b.agg
  | .div a b => divR a.agg b.agg
  | .sin a => sinR a.agg
  | .cos a => cosR a.agg
  | .exp a => expR a.agg
  | .ln a => lnR a.agg
  | .pow a b => powR a.agg b.agg

noncomputable def der (x : Variable) : Tm V → Tm V
  | .num _ => .num zero
  | .var y => if x = y then .num one else .num zero
  | .neg a => (a.der x).neg.agg
  | .add a b => ((a.der x).add (b.der x)).agg
  | .sub a b => ((a.der x).sub (b.der x)).agg
  | .mul a b => (((a.der x).mul b).add (a.mul (b.der x))).agg
  | .div a b => ((((a.der x).mul b).sub (a.mul (b.der x))).div (b.mul b)).agg
  | .sin a => (a.cos.mul (a.der x)).agg
  | .cos a => (a.sin.neg.mul (a.der x)).agg
  | .exp a => ((a.der x).mul a.exp).agg
  | .ln a => ((a.der x).div a).agg
  | .pow a b => ((a.pow b).mul (((b.der x).mul a.ln).add ((b.mul (a.der x)).div a))).agg

/-! ### the rules by cases -/

theorem negR_cases (a : Tm V) : (a.isNum ∧ (negR a).isNum) ∨ (∃ c, a = neg c ∧ negR a = c) ∨
    (¬ a.isNum ∧ ¬ a.isNeg ∧ negR a = a.neg) := by
  cases a <;> simp [negR]

theorem addR_cases (a b : Tm V) : (a.isNum ∧ b.isNum ∧ (addR a b).isNum ∧ (a.Z → b.Z → (addR a b).Z)) ∨
    (a.Z ∧ ¬ b.isNum ∧ addR a b = b) ∨ (b.Z ∧ ¬ a.isNum ∧ addR a b = a) ∨
    (¬ (a.isNum ∧ b.isNum) ∧ ¬ a.Z ∧ ¬ b.Z ∧ addR a b = a.add b) := by
  by_cases h : a.isNum ∧ b.isNum
  · obtain ⟨x, rfl⟩ := h.1.eq; obtain ⟨y, rfl⟩ := h.2.eq
    exact .inl ⟨trivial, trivial, trivial, NumAlg.add_Z x y⟩
  right
  by_cases ha : a.isNum
  · obtain ⟨x, rfl⟩ := ha.eq
    have hb : ¬ b.isNum := fun hb => h ⟨ha, hb⟩
    have hz : ¬ b.Z := fun h => hb h.isNum
    by_cases hx : isZ x
    · exact .inl ⟨hx, hb, by cases b <;> simp_all [addR]⟩
    · exact .inr (.inr ⟨h, hx, hz, by cases b <;> simp_all [addR]⟩)
  · have hz : ¬ a.Z := fun h => ha h.isNum
    by_cases hb : b.Z
    · exact .inr (.inl ⟨hb, ha, by
        obtain ⟨y, rfl⟩ := hb.isNum.eq
        have : isZ y := hb
        cases a <;> simp_all [addR]⟩)
    · refine .inr (.inr ⟨h, hz, hb, ?_⟩)
      cases a <;> first | exact absurd trivial ha | (cases b <;> simp_all [addR])

theorem subR_cases (a b : Tm V) : (a.isNum ∧ b.isNum ∧ (subR a b).isNum ∧ (a.Z → b.Z → (subR a b).Z)) ∨
    (a.Z ∧ ¬ b.isNum ∧ subR a b = b.neg) ∨ (b.Z ∧ ¬ a.isNum ∧ subR a b = a) ∨
    (¬ (a.isNum ∧ b.isNum) ∧ ¬ a.Z ∧ ¬ b.Z ∧ subR a b = a.sub b) := by
  by_cases h : a.isNum ∧ b.isNum
  · obtain ⟨x, rfl⟩ := h.1.eq; obtain ⟨y, rfl⟩ := h.2.eq
    exact .inl ⟨trivial, trivial, trivial, NumAlg.sub_Z x y⟩
  right
  by_cases ha : a.isNum
  · obtain ⟨x, rfl⟩ := ha.eq
    have hb : ¬ b.isNum := fun hb => h ⟨ha, hb⟩
    have hz : ¬ b.Z := fun h => hb h.isNum
    by_cases hx : isZ x
    · exact .inl ⟨hx, hb, by cases b <;> simp_all [subR]⟩
    · exact .inr (.inr ⟨h, hx, hz, by cases b <;> simp_all [subR]⟩)
  · have hz : ¬ a.Z := fun h => ha h.isNum
    by_cases hb : b.Z
    · exact .inr (.inl ⟨hb, ha, by
        obtain ⟨y, rfl⟩ := hb.isNum.eq
        have : isZ y := hb
        cases a <;> simp_all [subR]⟩)
    · refine .inr (.inr ⟨h, hz, hb, ?_⟩)
      cases a <;> first | exact absurd trivial ha | (cases b <;> simp_all [subR])

theorem mulR_cases (a b : Tm V) : (a.isNum ∧ b.isNum ∧ (mulR a b).isNum ∧ (a.Z ∨ b.Z → (mulR a b).Z)) ∨
    ((a.Z ∨ b.Z) ∧ mulR a b = num zero) ∨ (a.O ∧ ¬ b.isNum ∧ mulR a b = b) ∨ (b.O ∧ ¬ a.isNum ∧ mulR a b = a) ∨
    (¬ (a.isNum ∧ b.isNum) ∧ ¬ a.Z ∧ ¬ b.Z ∧ ¬ a.O ∧ ¬ b.O ∧ mulR a b = a.mul b) := by
  by_cases h : a.isNum ∧ b.isNum
  · obtain ⟨x, rfl⟩ := h.1.eq; obtain ⟨y, rfl⟩ := h.2.eq
    exact .inl ⟨trivial, trivial, trivial, NumAlg.mul_Z x y⟩
  right
  by_cases ha : a.isNum
  · obtain ⟨x, rfl⟩ := ha.eq
    have hb : ¬ b.isNum := fun hb => h ⟨ha, hb⟩
    have hz : ¬ b.Z := fun h => hb h.isNum
    have ho : ¬ b.O := fun h => hb h.isNum
    by_cases hx : isZ x
    · exact .inl ⟨.inl hx, by cases b <;> simp_all [mulR]⟩
    by_cases h1 : isO x
    · exact .inr (.inl ⟨h1, hb, by cases b <;> simp_all [mulR]⟩)
    · exact .inr (.inr (.inr ⟨h, hx, hz, h1, ho, by cases b <;> simp_all [mulR]⟩))
  · have hz : ¬ a.Z := fun h => ha h.isNum
    have ho : ¬ a.O := fun h => ha h.isNum
    by_cases hb : b.isNum
    · obtain ⟨y, rfl⟩ := hb.eq
      by_cases hy : isZ y
      · exact .inl ⟨.inr hy, by cases a <;> simp_all [mulR]⟩
      by_cases h1 : isO y
      · exact .inr (.inr (.inl ⟨h1, ha, by cases a <;> simp_all [mulR]⟩))
      · exact .inr (.inr (.inr ⟨h, hz, hy, ho, h1, by cases a <;> simp_all [mulR]⟩))
    · refine .inr (.inr (.inr ⟨h, hz, fun h => hb h.isNum, ho, fun h => hb h.isNum, ?_⟩))
      cases a <;> first | exact absurd trivial ha | (cases b <;> simp_all [mulR])

theorem divR_cases (a b : Tm V) : (a.isNum ∧ b.isNum ∧ (divR a b).isNum ∧ (a.Z → (divR a b).Z)) ∨
    (a.Z ∧ ¬ b.isNum ∧ divR a b = num zero) ∨ (¬ (a.isNum ∧ b.isNum) ∧ ¬ a.Z ∧ divR a b = a.div b) := by
  by_cases h : a.isNum ∧ b.isNum
  · obtain ⟨x, rfl⟩ := h.1.eq; obtain ⟨y, rfl⟩ := h.2.eq
    exact .inl ⟨trivial, trivial, trivial, NumAlg.div_Z x y⟩
  right
  by_cases ha : a.isNum
  · obtain ⟨x, rfl⟩ := ha.eq
    have hb : ¬ b.isNum := fun hb => h ⟨ha, hb⟩
    by_cases hx : isZ x
    · exact .inl ⟨hx, hb, by cases b <;> simp_all [divR]⟩
    · exact .inr ⟨h, hx, by cases b <;> simp_all [divR]⟩
  · exact .inr ⟨h, fun h => ha h.isNum, by cases a <;> first | exact absurd trivial ha | rfl⟩

theorem sinR_cases (a : Tm V) : (sinR a = a.sin ∧ cosR a = a.cos) ∨ (a.isNum ∧ sinR a = num zero ∧ cosR a = num one) := by
  cases a with
  | num x => by_cases h : isZ x ∨ isPi x <;> simp [sinR, cosR, h]
  | _ => exact .inl ⟨rfl, rfl⟩
theorem expR_cases (a : Tm V) : expR a = a.exp ∨ (a.isNum ∧ (expR a).isNum) ∨ ∃ c, a = c.ln ∧ expR a = c := by
  cases a with
  | num x => by_cases h : isZ x <;> by_cases h' : isO x <;> simp [expR, h, h']
  | ln c => exact .inr (.inr ⟨c, rfl, rfl⟩)
  | _ => exact .inl rfl
theorem lnR_cases (a : Tm V) : lnR a = a.ln ∨ (a.isNum ∧ (lnR a).isNum) ∨ ∃ c, a = c.exp ∧ lnR a = c := by
  cases a with
  | num x => by_cases h : isE x <;> by_cases h' : isO x <;> simp [lnR, h, h']
  | exp c => exact .inr (.inr ⟨c, rfl, rfl⟩)
  | _ => exact .inl rfl
theorem powR_cases (a b : Tm V) : powR a b = a.pow b ∨ (a.isNum ∧ (powR a b).isNum) ∨ (a.isNum ∧ powR a b = b) ∨
    ∃ c, a = c.ln ∧ powR a b = c := by
  cases a with
  | num x => by_cases h : isZ x <;> by_cases h' : isO x <;> simp [powR, h, h']
  | ln c => exact .inr (.inr (.inr ⟨c, rfl, rfl⟩))
  | _ => exact .inl rfl

theorem isNum.size {a : Tm V} (h : a.isNum) : a.size = 1 := by obtain ⟨v, rfl⟩ := h.eq; rfl
theorem isNum.lvl {a : Tm V} (h : a.isNum) : a.lvl = 0 := by obtain ⟨v, rfl⟩ := h.eq; rfl
theorem isNum.agg {a : Tm V} (h : a.isNum) : a.agg = a := by obtain ⟨v, rfl⟩ := h.eq; rfl

/-! ### passes make trees smaller -/

/-- A pass changes nothing or makes the tree smaller. -/
theorem agg_shrinks (a : Tm V) : a.agg = a ∨ a.agg.size < a.size := by
  have le : ∀ {a : Tm V}, (a.agg = a ∨ a.agg.size < a.size) → a.agg.size ≤ a.size := by
    rintro a (h | h)
    · rw [h]
    · exact h.le
  induction a with
  | num | var => exact .inl rfl
  | neg a i =>
    have l := le i
    have p := size_pos a
    rcases negR_cases a.agg with ⟨-, h⟩ | ⟨c, h, h'⟩ | ⟨-, -, h⟩
    · right; show (negR a.agg).size < a.size + 1; rw [h.size]; omega
    · right; show (negR a.agg).size < a.size + 1; rw [h']; rw [h] at l; simp only [Tm.size] at l; omega
    · show negR a.agg = _ ∨ (negR a.agg).size < a.size + 1
      rw [h]; simp only [Tm.size, Tm.neg.injEq]; exact i.imp id fun h => by omega
  | add a b i j =>
    have la := le i; have lb := le j
    have p := size_pos a; have q := size_pos b
    show addR a.agg b.agg = _ ∨ (addR a.agg b.agg).size < a.size + b.size + 1
    rcases addR_cases a.agg b.agg with ⟨-, -, h, -⟩ | ⟨-, -, h⟩ | ⟨-, -, h⟩ | ⟨-, -, -, h⟩
    · right; rw [h.size]; omega
    · right; rw [h]; omega
    · right; rw [h]; omega
    · rw [h]; simp only [Tm.size, Tm.add.injEq]
      rcases i with i | i
      · rcases j with j | j
        · exact .inl ⟨i, j⟩
        · right; omega
      · right; omega
  | sub a b i j =>
    have la := le i; have lb := le j
    have p := size_pos a; have q := size_pos b
    show subR a.agg b.agg = _ ∨ (subR a.agg b.agg).size < a.size + b.size + 1
    rcases subR_cases a.agg b.agg with ⟨-, -, h, -⟩ | ⟨-, -, h⟩ | ⟨-, -, h⟩ | ⟨-, -, -, h⟩
    · right; rw [h.size]; omega
    · right; rw [h]; simp only [Tm.size]; omega
    · right; rw [h]; omega
    · rw [h]; simp only [Tm.size, Tm.sub.injEq]
      rcases i with i | i
      · rcases j with j | j
        · exact .inl ⟨i, j⟩
        · right; omega
      · right; omega
  | mul a b i j =>
    have la := le i; have lb := le j
    have p := size_pos a; have q := size_pos b
    show mulR a.agg b.agg = _ ∨ (mulR a.agg b.agg).size < a.size + b.size + 1
    rcases mulR_cases a.agg b.agg with ⟨-, -, h, -⟩ | ⟨-, h⟩ | ⟨-, -, h⟩ | ⟨-, -, h⟩ | ⟨-, -, -, -, -, h⟩
    · right; rw [h.size]; omega
    · right; rw [h]; simp only [Tm.size]; omega
    · right; rw [h]; omega
    · right; rw [h]; omega
    · rw [h]; simp only [Tm.size, Tm.mul.injEq]
      rcases i with i | i
      · rcases j with j | j
        · exact .inl ⟨i, j⟩
        · right; omega
      · right; omega
  | div a b i j =>
    have la := le i; have lb := le j
    have p := size_pos a; have q := size_pos b
    show divR a.agg b.agg = _ ∨ (divR a.agg b.agg).size < a.size + b.size + 1
    rcases divR_cases a.agg b.agg with ⟨-, -, h, -⟩ | ⟨-, -, h⟩ | ⟨-, -, h⟩
    · right; rw [h.size]; omega
    · right; rw [h]; simp only [Tm.size]; omega
    · rw [h]; simp only [Tm.size, Tm.div.injEq]
      rcases i with i | i
      · rcases j with j | j
        · exact .inl ⟨i, j⟩
        · right; omega
      · right; omega
  | sin a i =>
    have p := size_pos a
    show sinR a.agg = _ ∨ (sinR a.agg).size < a.size + 1
    rcases sinR_cases a.agg with ⟨h, -⟩ | ⟨-, h, -⟩ <;> rw [h] <;> simp only [Tm.size, Tm.sin.injEq]
    · exact i.imp id fun h => by omega
    · right; omega
  | cos a i =>
    have p := size_pos a
    show cosR a.agg = _ ∨ (cosR a.agg).size < a.size + 1
    rcases sinR_cases a.agg with ⟨-, h⟩ | ⟨-, -, h⟩ <;> rw [h] <;> simp only [Tm.size, Tm.cos.injEq]
    · exact i.imp id fun h => by omega
    · right; omega
  | exp a i =>
    have l := le i
    have p := size_pos a
    show expR a.agg = _ ∨ (expR a.agg).size < a.size + 1
    rcases expR_cases a.agg with h | ⟨-, h⟩ | ⟨c, h, h'⟩
    · rw [h]; simp only [Tm.size, Tm.exp.injEq]; exact i.imp id fun h => by omega
    · right; rw [h.size]; omega
    · right; rw [h']; rw [h] at l; simp only [Tm.size] at l; omega
  | ln a i =>
    have l := le i
    have p := size_pos a
    show lnR a.agg = _ ∨ (lnR a.agg).size < a.size + 1
    rcases lnR_cases a.agg with h | ⟨-, h⟩ | ⟨c, h, h'⟩
    · rw [h]; simp only [Tm.size, Tm.ln.injEq]; exact i.imp id fun h => by omega
    · right; rw [h.size]; omega
    · right; rw [h']; rw [h] at l; simp only [Tm.size] at l; omega
  | pow a b i j =>
    have la := le i; have lb := le j
    have p := size_pos a; have q := size_pos b
    show powR a.agg b.agg = _ ∨ (powR a.agg b.agg).size < a.size + b.size + 1
    rcases powR_cases a.agg b.agg with h | ⟨-, h⟩ | ⟨-, h⟩ | ⟨c, h, h'⟩
    · rw [h]; simp only [Tm.size, Tm.pow.injEq]
      rcases i with i | i
      · rcases j with j | j
        · exact .inl ⟨i, j⟩
        · right; omega
      · right; omega
    · right; rw [h.size]; omega
    · right; rw [h]; omega
    · right; rw [h']; rw [h] at la; simp only [Tm.size] at la; omega

theorem size_agg (a : Tm V) : a.agg.size ≤ a.size := by
  rcases agg_shrinks a with h | h
  · rw [h]
  · exact h.le

/-- A tree that `num_aggregate` does not change. -/
def St (t : Tm V) : Prop := t.agg = t

theorem St.it {t : Tm V} (h : t.St) (k : ℕ) : agg^[k] t = t := Function.iterate_fixed h k

theorem it_stable (t : Tm V) : ∃ K, (agg^[K] t).St := by
  induction hs : t.size using Nat.strong_induction_on generalizing t with
  | _ s ih =>
    rcases agg_shrinks t with h | h
    · exact ⟨0, h⟩
    · obtain ⟨K, hK⟩ := ih _ (hs ▸ h) t.agg rfl
      exact ⟨K + 1, by rwa [Function.iterate_succ_apply]⟩

theorem it_stable_mono {t : Tm V} {K J : ℕ} (h : (agg^[K] t).St) (hJ : K ≤ J) : (agg^[J] t).St := by
  obtain ⟨i, rfl⟩ := Nat.exists_eq_add_of_le hJ
  rw [Nat.add_comm, Function.iterate_add_apply, h.it]; exact h

/-- One pass less is needed after a pass. -/
theorem it_pred {t : Tm V} {K : ℕ} (h : (agg^[K] t).St) : (agg^[K - 1] t.agg).St := by
  cases K with
  | zero => have : t.St := h; rw [this]; exact this
  | succ K => rwa [Function.iterate_succ_apply] at h

/-! ### stable trees, node by node -/

theorem isNum.st {a : Tm V} (h : a.isNum) : a.St := h.agg

theorem st_neg {a : Tm V} : a.neg.St ↔ a.St ∧ ¬ a.isNum ∧ ¬ a.isNeg := by
  constructor
  · intro h
    have h : negR a.agg = a.neg := h
    have l := size_agg a
    rcases negR_cases a.agg with ⟨-, h'⟩ | ⟨c, h1, h2⟩ | ⟨h1, h2, h3⟩
    · rw [h] at h'; simp at h'
    · rw [h] at h2; rw [h1, ← h2] at l; simp only [Tm.size] at l; omega
    · rw [h, Tm.neg.injEq] at h3; rw [← h3] at h1 h2; exact ⟨h3.symm, h1, h2⟩
  · rintro ⟨h, h1, h2⟩
    show negR a.agg = _
    rw [h]
    rcases negR_cases a with ⟨h', -⟩ | ⟨c, h', -⟩ | ⟨-, -, h'⟩
    · exact absurd h' h1
    · rw [h'] at h2; simp at h2
    · exact h'

theorem st_add {a b : Tm V} : (a.add b).St ↔ a.St ∧ b.St ∧ ¬ (a.isNum ∧ b.isNum) ∧ ¬ a.Z ∧ ¬ b.Z := by
  constructor
  · intro h
    have h : addR a.agg b.agg = a.add b := h
    have la := size_agg a; have lb := size_agg b
    rcases addR_cases a.agg b.agg with ⟨-, -, h', -⟩ | ⟨-, -, h'⟩ | ⟨-, -, h'⟩ | ⟨h1, h2, h3, h'⟩
    · rw [h] at h'; simp at h'
    · rw [h] at h'; rw [← h'] at lb; simp only [Tm.size] at lb; omega
    · rw [h] at h'; rw [← h'] at la; simp only [Tm.size] at la; omega
    · rw [h, Tm.add.injEq] at h'
      rw [← h'.1, ← h'.2] at h1; rw [← h'.1] at h2; rw [← h'.2] at h3
      exact ⟨h'.1.symm, h'.2.symm, h1, h2, h3⟩
  · rintro ⟨ha, hb, h1, h2, h3⟩
    show addR a.agg b.agg = _
    rw [ha, hb]
    rcases addR_cases a b with ⟨h, h', -⟩ | ⟨h', -⟩ | ⟨h', -⟩ | ⟨-, -, -, h'⟩
    · exact absurd ⟨h, h'⟩ h1
    · exact absurd h' h2
    · exact absurd h' h3
    · exact h'

theorem st_sub {a b : Tm V} : (a.sub b).St ↔ a.St ∧ b.St ∧ ¬ (a.isNum ∧ b.isNum) ∧ ¬ a.Z ∧ ¬ b.Z := by
  constructor
  · intro h
    have h : subR a.agg b.agg = a.sub b := h
    have la := size_agg a; have lb := size_agg b
    rcases subR_cases a.agg b.agg with ⟨-, -, h', -⟩ | ⟨-, -, h'⟩ | ⟨-, -, h'⟩ | ⟨h1, h2, h3, h'⟩
    · rw [h] at h'; simp at h'
    · rw [h] at h'; cases h'
    · rw [h] at h'; rw [← h'] at la; simp only [Tm.size] at la; omega
    · rw [h, Tm.sub.injEq] at h'
      rw [← h'.1, ← h'.2] at h1; rw [← h'.1] at h2; rw [← h'.2] at h3
      exact ⟨h'.1.symm, h'.2.symm, h1, h2, h3⟩
  · rintro ⟨ha, hb, h1, h2, h3⟩
    show subR a.agg b.agg = _
    rw [ha, hb]
    rcases subR_cases a b with ⟨h, h', -⟩ | ⟨h', -⟩ | ⟨h', -⟩ | ⟨-, -, -, h'⟩
    · exact absurd ⟨h, h'⟩ h1
    · exact absurd h' h2
    · exact absurd h' h3
    · exact h'

theorem st_mul {a b : Tm V} : (a.mul b).St ↔ a.St ∧ b.St ∧ ¬ (a.isNum ∧ b.isNum) ∧ ¬ a.Z ∧ ¬ b.Z ∧ ¬ a.O ∧ ¬ b.O := by
  constructor
  · intro h
    have h : mulR a.agg b.agg = a.mul b := h
    have la := size_agg a; have lb := size_agg b
    rcases mulR_cases a.agg b.agg with ⟨-, -, h', -⟩ | ⟨-, h'⟩ | ⟨-, -, h'⟩ | ⟨-, -, h'⟩ | ⟨h1, h2, h3, h4, h5, h'⟩
    · rw [h] at h'; simp at h'
    · rw [h] at h'; cases h'
    · rw [h] at h'; rw [← h'] at lb; simp only [Tm.size] at lb; omega
    · rw [h] at h'; rw [← h'] at la; simp only [Tm.size] at la; omega
    · rw [h, Tm.mul.injEq] at h'
      rw [← h'.1, ← h'.2] at h1; rw [← h'.1] at h2 h4; rw [← h'.2] at h3 h5
      exact ⟨h'.1.symm, h'.2.symm, h1, h2, h3, h4, h5⟩
  · rintro ⟨ha, hb, h1, h2, h3, h4, h5⟩
    show mulR a.agg b.agg = _
    rw [ha, hb]
    rcases mulR_cases a b with ⟨h, h', -⟩ | ⟨h' | h', -⟩ | ⟨h', -⟩ | ⟨h', -⟩ | ⟨-, -, -, -, -, h'⟩
    · exact absurd ⟨h, h'⟩ h1
    · exact absurd h' h2
    · exact absurd h' h3
    · exact absurd h' h4
    · exact absurd h' h5
    · exact h'

theorem st_div {a b : Tm V} : (a.div b).St ↔ a.St ∧ b.St ∧ ¬ (a.isNum ∧ b.isNum) ∧ ¬ a.Z := by
  constructor
  · intro h
    have h : divR a.agg b.agg = a.div b := h
    have la := size_agg a; have lb := size_agg b
    rcases divR_cases a.agg b.agg with ⟨-, -, h', -⟩ | ⟨-, -, h'⟩ | ⟨h1, h2, h'⟩
    · rw [h] at h'; simp at h'
    · rw [h] at h'; cases h'
    · rw [h, Tm.div.injEq] at h'
      rw [← h'.1, ← h'.2] at h1; rw [← h'.1] at h2
      exact ⟨h'.1.symm, h'.2.symm, h1, h2⟩
  · rintro ⟨ha, hb, h1, h2⟩
    show divR a.agg b.agg = _
    rw [ha, hb]
    rcases divR_cases a b with ⟨h, h', -⟩ | ⟨h', -⟩ | ⟨-, -, h'⟩
    · exact absurd ⟨h, h'⟩ h1
    · exact absurd h' h2
    · exact h'

theorem st_sin {a : Tm V} : a.sin.St ↔ a.St ∧ sinR a = a.sin := by
  constructor
  · intro h
    have h : sinR a.agg = a.sin := h
    rcases sinR_cases a.agg with ⟨h1, -⟩ | ⟨-, h1, -⟩
    · have e := h
      rw [h1, Tm.sin.injEq] at e; rw [e] at h; exact ⟨e, h⟩
    · rw [h1] at h; cases h
  · rintro ⟨h, h'⟩
    show sinR a.agg = _
    rw [h, h']
theorem st_cos {a : Tm V} : a.cos.St ↔ a.St ∧ cosR a = a.cos := by
  constructor
  · intro h
    have h : cosR a.agg = a.cos := h
    rcases sinR_cases a.agg with ⟨-, h1⟩ | ⟨-, -, h1⟩
    · have e := h
      rw [h1, Tm.cos.injEq] at e; rw [e] at h; exact ⟨e, h⟩
    · rw [h1] at h; cases h
  · rintro ⟨h, h'⟩
    show cosR a.agg = _
    rw [h, h']
theorem sinR_iff_cosR {a : Tm V} : sinR a = a.sin ↔ cosR a = a.cos := by
  rcases sinR_cases a with ⟨h, h'⟩ | ⟨-, h, h'⟩ <;> rw [h, h'] <;> simp
theorem st_exp {a : Tm V} : a.exp.St ↔ a.St ∧ expR a = a.exp := by
  constructor
  · intro h
    have h : expR a.agg = a.exp := h
    have l := size_agg a
    rcases expR_cases a.agg with h1 | ⟨-, h1⟩ | ⟨c, h1, h2⟩
    · have e := h
      rw [h1, Tm.exp.injEq] at e; rw [e] at h; exact ⟨e, h⟩
    · rw [h] at h1; simp at h1
    · rw [h] at h2; rw [h1, ← h2] at l; simp only [Tm.size] at l; omega
  · rintro ⟨h, h'⟩
    show expR a.agg = _
    rw [h, h']
theorem st_ln {a : Tm V} : a.ln.St ↔ a.St ∧ lnR a = a.ln := by
  constructor
  · intro h
    have h : lnR a.agg = a.ln := h
    have l := size_agg a
    rcases lnR_cases a.agg with h1 | ⟨-, h1⟩ | ⟨c, h1, h2⟩
    · have e := h
      rw [h1, Tm.ln.injEq] at e; rw [e] at h; exact ⟨e, h⟩
    · rw [h] at h1; simp at h1
    · rw [h] at h2; rw [h1, ← h2] at l; simp only [Tm.size] at l; omega
  · rintro ⟨h, h'⟩
    show lnR a.agg = _
    rw [h, h']
theorem st_pow {a b : Tm V} : (a.pow b).St ↔ a.St ∧ b.St ∧ powR a b = a.pow b := by
  constructor
  · intro h
    have h : powR a.agg b.agg = a.pow b := h
    have la := size_agg a; have lb := size_agg b
    rcases powR_cases a.agg b.agg with h1 | ⟨-, h1⟩ | ⟨-, h1⟩ | ⟨c, h1, h2⟩
    · have e := h
      rw [h1, Tm.pow.injEq] at e; rw [e.1, e.2] at h; exact ⟨e.1, e.2, h⟩
    · rw [h] at h1; simp at h1
    · rw [h] at h1; rw [← h1] at lb; simp only [Tm.size] at lb; omega
    · rw [h] at h2; rw [h1, ← h2] at la; simp only [Tm.size] at la; omega
  · rintro ⟨h, h1, h'⟩
    show powR a.agg b.agg = _
    rw [h, h1, h']

theorem St.negR {a : Tm V} (h : a.St) : (negR a).St := by
  rcases negR_cases a with ⟨-, h'⟩ | ⟨c, h1, h2⟩ | ⟨h1, h2, h3⟩
  · exact h'.st
  · rw [h2]; rw [h1] at h; exact (st_neg.1 h).1
  · rw [h3]; exact st_neg.2 ⟨h, h1, h2⟩
theorem St.addR {a b : Tm V} (ha : a.St) (hb : b.St) : (addR a b).St := by
  rcases addR_cases a b with ⟨-, -, h, -⟩ | ⟨-, -, h⟩ | ⟨-, -, h⟩ | ⟨h1, h2, h3, h⟩
  · exact h.st
  · rwa [h]
  · rwa [h]
  · rw [h]; exact st_add.2 ⟨ha, hb, h1, h2, h3⟩
theorem St.subR {a b : Tm V} (ha : a.St) (hb : b.St) : (subR a b).St ∨ (a.Z ∧ b.isNeg ∧ subR a b = b.neg) := by
  rcases subR_cases a b with ⟨-, -, h, -⟩ | ⟨h1, h2, h⟩ | ⟨-, -, h⟩ | ⟨h1, h2, h3, h⟩
  · exact .inl h.st
  · by_cases hn : b.isNeg
    · exact .inr ⟨h1, hn, h⟩
    · rw [h]; exact .inl (st_neg.2 ⟨hb, h2, hn⟩)
  · rw [h]; exact .inl ha
  · rw [h]; exact .inl (st_sub.2 ⟨ha, hb, h1, h2, h3⟩)
theorem St.mulR {a b : Tm V} (ha : a.St) (hb : b.St) : (mulR a b).St := by
  rcases mulR_cases a b with ⟨-, -, h, -⟩ | ⟨-, h⟩ | ⟨-, -, h⟩ | ⟨-, -, h⟩ | ⟨h1, h2, h3, h4, h5, h⟩
  · exact h.st
  · rw [h]; rfl
  · rwa [h]
  · rwa [h]
  · rw [h]; exact st_mul.2 ⟨ha, hb, h1, h2, h3, h4, h5⟩
theorem St.divR {a b : Tm V} (ha : a.St) (hb : b.St) : (divR a b).St := by
  rcases divR_cases a b with ⟨-, -, h, -⟩ | ⟨-, -, h⟩ | ⟨h1, h2, h⟩
  · exact h.st
  · rw [h]; rfl
  · rw [h]; exact st_div.2 ⟨ha, hb, h1, h2⟩

end Tm
end SymRust.End
