import Verif.Spec.Formula
import Verif.Proofs.Float64Bits
import Verif.Props.Eval
import Verif.Props.Special
/-! # Expressions compute exactly what the number operators compute: property C89 -/

namespace SymRust
variable {F : Type} [FloatOps F]
open Expr

namespace Formula

omit [FloatOps F] in
theorem tree (t : Formula F) : Tree t.expr := by
  induction t with
  | num n => exact .num n trivial
  | var v => exact .var v
  | neg a i => exact .neg _ i
  | add a b i j => exact .add _ _ i j
  | sub a b i j => exact .sub _ _ i j
  | mul a b i j => exact .mul _ _ i j
  | div a b i j => exact .div _ _ i j

theorem negRule_num (m : Mode) (x : Res (SmartNum F)) :
    negEvalRule m [x >>= fun n => .ok (ofNum n)] = (x >>= fun n => n.neg m) >>= fun n => .ok (ofNum n) := by
  cases x with
  | panic => rfl
  | ok n => rfl

theorem addRule_num (m : Mode) (x y : Res (SmartNum F)) :
    addEvalRule m [x >>= fun n => .ok (ofNum n), y >>= fun n => .ok (ofNum n)] =
      (x >>= fun a => y >>= fun b => a.add m b) >>= fun n => .ok (ofNum n) := by
  cases x <;> cases y <;> rfl

theorem subRule_num (m : Mode) (x y : Res (SmartNum F)) :
    subEvalRule m [x >>= fun n => .ok (ofNum n), y >>= fun n => .ok (ofNum n)] =
      (x >>= fun a => y >>= fun b => a.sub m b) >>= fun n => .ok (ofNum n) := by
  cases x <;> cases y <;> rfl

theorem mulRule_num (m : Mode) (x y : Res (SmartNum F)) :
    mulEvalRule m [x >>= fun n => .ok (ofNum n), y >>= fun n => .ok (ofNum n)] =
      (x >>= fun a => y >>= fun b => a.mul m b) >>= fun n => .ok (ofNum n) := by
  cases x <;> cases y <;> rfl

theorem divRule_num (m : Mode) (x y : Res (SmartNum F)) :
    divEvalRule m [x >>= fun n => .ok (ofNum n), y >>= fun n => .ok (ofNum n)] =
      (x >>= fun a => y >>= fun b => a.div m b) >>= fun n => .ok (ofNum n) := by
  cases x <;> cases y <;> rfl

/-- Without variables. -/
theorem fold (m : Mode) (ρ : Variable → SmartNum F) (t : Formula F) (h : ∀ v, ¬ Occurs v t.expr) :
    t.expr.numAggregate m = t.compute m ρ >>= fun n => .ok (ofNum n) := by
  induction t with
  | num n => exact numAggregate_ofNum m n
  | var v => exact absurd ((occurs_ofVar v v).2 rfl) (h v)
  | neg a i =>
    simp only [expr, occurs_neg] at h
    rw [expr, numAggregate_neg, i h, negRule_num]; rfl
  | add a b i j =>
    simp only [expr, occurs_add, not_or] at h
    rw [expr, numAggregate_add, i fun v => (h v).1, j fun v => (h v).2, addRule_num]; rfl
  | sub a b i j =>
    simp only [expr, occurs_sub, not_or] at h
    rw [expr, numAggregate_sub, i fun v => (h v).1, j fun v => (h v).2, subRule_num]; rfl
  | mul a b i j =>
    simp only [expr, occurs_mul, not_or] at h
    rw [expr, numAggregate_mul, i fun v => (h v).1, j fun v => (h v).2, mulRule_num]; rfl
  | div a b i j =>
    simp only [expr, occurs_div, not_or] at h
    rw [expr, numAggregate_div, i fun v => (h v).1, j fun v => (h v).2, divRule_num]; rfl

/-- One variable replaced by a number. -/
theorem replace (m : Mode) (ρ : Variable → SmartNum F) (x : Variable) (n : SmartNum F) (t : Formula F)
    (h : Occurs x t.expr → ρ x = n) : ∃ t' : Formula F, t'.expr = t.expr.replace x (ofNum n) ∧ t'.compute m ρ = t.compute m ρ := by
  induction t with
  | num k => exact ⟨.num k, by rw [expr, replace_ofNum], rfl⟩
  | var v =>
    rw [expr, replace_ofVar]
    split_ifs with hv
    · subst hv
      exact ⟨.num n, rfl, by rw [compute, compute, h ((occurs_ofVar v v).2 rfl)]⟩
    · exact ⟨.var v, rfl, rfl⟩
  | neg a i =>
    simp only [expr, occurs_neg] at h
    obtain ⟨a', h1, h2⟩ := i h
    exact ⟨.neg a', by rw [expr, h1, expr, replace_neg], by rw [compute, h2, compute]⟩
  | add a b i j =>
    simp only [expr, occurs_add] at h
    obtain ⟨a', h1, h2⟩ := i fun k => h (.inl k)
    obtain ⟨b', h3, h4⟩ := j fun k => h (.inr k)
    exact ⟨.add a' b', by rw [expr, h1, h3, expr, replace_add], by rw [compute, h2, h4, compute]⟩
  | sub a b i j =>
    simp only [expr, occurs_sub] at h
    obtain ⟨a', h1, h2⟩ := i fun k => h (.inl k)
    obtain ⟨b', h3, h4⟩ := j fun k => h (.inr k)
    exact ⟨.sub a' b', by rw [expr, h1, h3, expr, replace_sub], by rw [compute, h2, h4, compute]⟩
  | mul a b i j =>
    simp only [expr, occurs_mul] at h
    obtain ⟨a', h1, h2⟩ := i fun k => h (.inl k)
    obtain ⟨b', h3, h4⟩ := j fun k => h (.inr k)
    exact ⟨.mul a' b', by rw [expr, h1, h3, expr, replace_mul], by rw [compute, h2, h4, compute]⟩
  | div a b i j =>
    simp only [expr, occurs_div] at h
    obtain ⟨a', h1, h2⟩ := i fun k => h (.inl k)
    obtain ⟨b', h3, h4⟩ := j fun k => h (.inr k)
    exact ⟨.div a' b', by rw [expr, h1, h3, expr, replace_div], by rw [compute, h2, h4, compute]⟩

end Formula

/-- C89: in every build, putting numbers of any kind for the variables of a formula and simplifying gives exactly what
computing the formula with the operators of numbers gives: the same number, or a panic. -/
theorem C89_evaluation (m : Mode) (ρ : Variable → SmartNum F) (t : Formula F) (bs : List (Variable × SmartNum F))
    (h : Gives ρ bs t.expr) : ∃ s, substituteAll t.expr bs = .ok s ∧
      s.numAggregate m = (t.compute m ρ >>= fun n => .ok (ofNum n)) := by
  induction bs generalizing t with
  | nil => exact ⟨_, rfl, t.fold m ρ fun v hv => by cases h v hv⟩
  | cons b bs ih =>
    obtain ⟨x, n⟩ := b
    obtain ⟨t', h1, h2⟩ := t.replace m ρ x n fun hx => by
      have := h x hx
      simp only [List.find?_cons, beq_self_eq_true, Option.some.injEq, Prod.mk.injEq, true_and] at this
      exact this.symm
    obtain ⟨s, h3, h4⟩ := ih t' (by
      intro v hv
      rw [h1] at hv
      have hv' : Occurs v t.expr ∧ v ≠ x := by
        rcases occurs_replace.1 hv with h | ⟨-, h⟩
        · exact h
        · simp at h
      have hne : (x.name == v.name) = false := by
        rw [beq_eq_false_iff_ne]
        intro hh
        exact hv'.2 (by cases x; cases v; simp_all)
      simpa [List.find?_cons, hne] using h v hv'.1)
    exact ⟨s, by rw [substituteAll, substitute_eq, ← h1]; exact h3, by rw [h4, h2]⟩

namespace Formula

/-! ### the operators depend on the stored values only -/

omit [FloatOps F] in
theorem exact_of_value {x y : SmartNum F} (h : x.value = y.value) : x.exact? = y.exact? := by
  rw [SmartNum.exact?, SmartNum.exact?, h]

theorem same_isZero {x y : SmartNum F} (hx : x.Valid) (hy : y.Valid) (h : x.value = y.value) : x.isZero = y.isZero := by
  rw [Bool.eq_iff_iff, hx.zero_iff, hy.zero_iff, exact_of_value h]

theorem same_isOne {x y : SmartNum F} (hx : x.Valid) (hy : y.Valid) (h : x.value = y.value) : x.isOne = y.isOne := by
  rw [Bool.eq_iff_iff, hx.one_iff, hy.one_iff, exact_of_value h]

theorem neg_same {m : Mode} {x x' y : SmartNum F} (h : x'.value = x.value) (hy : x.neg m = .ok y) : x'.neg m = .ok y := by
  rw [← hy]; unfold SmartNum.neg; rw [h]

section
variable {m : Mode} {a a' b b' c : SmartNum F} (ha : a.Valid) (ha' : a'.Valid) (hb : b.Valid) (hb' : b'.Valid)
  (h : a'.value = a.value) (k : b'.value = b.value)
include ha ha' hb hb' h k

theorem add_same (hc : a.add m b = .ok c) : ∃ c', a'.add m b' = .ok c' ∧ c'.value = c.value := by
  unfold SmartNum.add at hc ⊢
  rw [same_isZero ha' ha h, same_isZero hb' hb k]
  split_ifs at hc ⊢ with h1 h2
  · cases hc; exact ⟨_, rfl, k⟩
  · cases hc; exact ⟨_, rfl, h⟩
  · rw [h, k]; exact ⟨c, hc, rfl⟩

theorem sub_same (hc : a.sub m b = .ok c) : ∃ c', a'.sub m b' = .ok c' ∧ c'.value = c.value := by
  unfold SmartNum.sub at hc ⊢
  rw [same_isZero ha' ha h, same_isZero hb' hb k]
  split_ifs at hc ⊢ with h1 h2
  · exact ⟨c, neg_same k hc, rfl⟩
  · cases hc; exact ⟨_, rfl, h⟩
  · rw [h, k]; exact ⟨c, hc, rfl⟩

theorem mul_same (hc : a.mul m b = .ok c) : ∃ c', a'.mul m b' = .ok c' ∧ c'.value = c.value := by
  unfold SmartNum.mul at hc ⊢
  rw [same_isOne ha' ha h, same_isOne hb' hb k]
  split_ifs at hc ⊢ with h1 h2
  · cases hc; exact ⟨_, rfl, k⟩
  · cases hc; exact ⟨_, rfl, h⟩
  · rw [h, k]; exact ⟨c, hc, rfl⟩
end

theorem div_same {m : Mode} {a a' b b' c : SmartNum F} (h : a'.value = a.value) (k : b'.value = b.value)
    (hc : a.div m b = .ok c) : ∃ c', a'.div m b' = .ok c' ∧ c'.value = c.value := by
  unfold SmartNum.div at hc ⊢
  rw [h, k]; exact ⟨c, hc, rfl⟩

omit [FloatOps F] in
/-- A tidy exact zero is the integer 0. -/
theorem tidy_zero {x : SmartNum F} (h : Tidy x) (h0 : x.exact? = some 0) : x.value = .integer 0 := by
  cases hv : x.value with
  | real f => rw [SmartNum.exact?, hv] at h0; cases h0
  | integer i =>
    rw [SmartNum.exact?, hv] at h0
    simp only [SmartNumVal.exact?, Option.some.injEq, Int.cast_eq_zero] at h0
    congr 1
    rw [← Int64.toInt_inj, h0]; rfl
  | rational r => exact absurd h0 (h r hv).1

omit [FloatOps F] in
/-- A tidy exact one is the integer 1. -/
theorem tidy_one {x : SmartNum F} (h : Tidy x) (h0 : x.exact? = some 1) : x.value = .integer 1 := by
  cases hv : x.value with
  | real f => rw [SmartNum.exact?, hv] at h0; cases h0
  | integer i =>
    rw [SmartNum.exact?, hv] at h0
    simp only [SmartNumVal.exact?, Option.some.injEq, Int.cast_eq_one] at h0
    congr 1
    rw [← Int64.toInt_inj, h0]; rfl
  | rational r => exact absurd h0 (h r hv).2.1

theorem mul_zero {m : Mode} {a b c : SmartNum F} (ha : a.Valid) (hb : b.Valid) (ta : Tidy a) (tb : Tidy b)
    (hz : a.exact? = some 0 ∨ b.exact? = some 0) (hc : a.mul m b = .ok c) : c.value = .integer 0 := by
  unfold SmartNum.mul at hc
  split_ifs at hc with h1 h2
  · cases hc
    have := ha.one_iff.1 h1
    rcases hz with hz | hz
    · rw [hz] at this; simp at this
    · exact tidy_zero tb hz
  · cases hc
    have := hb.one_iff.1 h2
    rcases hz with hz | hz
    · exact tidy_zero ta hz
    · rw [hz] at this; simp at this
  · unfold SmartNumVal.mul at hc
    rw [if_pos (by simpa [SmartNumVal.isZero_iff ha.ok, SmartNumVal.isZero_iff hb.ok, SmartNum.exact?] using hz)] at hc
    cases hc; rfl

theorem div_zero {m : Mode} {a b c : SmartNum F} (ha : a.Valid) (hz : a.exact? = some 0) (hc : a.div m b = .ok c) :
    c.value = .integer 0 := by
  unfold SmartNum.div SmartNumVal.div at hc
  rw [if_pos ((SmartNumVal.isZero_iff ha.ok).2 hz)] at hc
  cases hc; rfl

omit [FloatOps F] in
theorem wrapVal_value {v : SmartNumVal F} (h : ∀ r, v = .rational r → v.isZero = false ∧ v.isOne = false) :
    (SmartNum.wrapVal v).value = v := by
  unfold SmartNum.wrapVal
  cases v with
  | real f => rfl
  | integer i =>
    split_ifs with h1 h2
    · have : i = 0 := by simpa [SmartNumVal.isZero] using h1
      rw [this]; rfl
    · have : i = 1 := by simpa [SmartNumVal.isOne] using h2
      rw [this]; rfl
    · rfl
  | rational r => simp [h r rfl]

theorem i64Neg_ok {m : Mode} {i j : Int64} (h : i64Neg m i = .ok j) : j = -i := by
  unfold i64Neg checked at h
  cases m <;> (try split_ifs at h) <;> cases h <;> rfl

theorem neg_neg_same (law : ∀ f : F, FloatOps.neg (FloatOps.neg f) = f) {m : Mode} {a b c : SmartNum F} (ha : a.Valid)
    (ta : Tidy a) (h : a.neg m = .ok b) (h' : b.neg m = .ok c) : c.value = a.value := by
  unfold SmartNum.neg at h h'
  simp only [Res.bind_eq_ok, Res.pure_eq, Res.ok.injEq] at h h'
  obtain ⟨v, h1, rfl⟩ := h
  obtain ⟨w, h2, rfl⟩ := h'
  cases hv : a.value with
  | real f =>
    rw [hv] at h1; cases h1
    rw [wrapVal_value (fun r h => by cases h)] at h2
    cases h2
    rw [wrapVal_value (fun r h => by cases h), law]
  | integer i =>
    rw [hv] at h1
    simp only [SmartNumVal.neg, Res.bind_eq_ok, Res.pure_eq, Res.ok.injEq] at h1
    obtain ⟨j, h1, rfl⟩ := h1
    rw [wrapVal_value (fun r h => by cases h)] at h2
    simp only [SmartNumVal.neg, Res.bind_eq_ok, Res.pure_eq, Res.ok.injEq] at h2
    obtain ⟨k, h2, rfl⟩ := h2
    rw [wrapVal_value (fun r h => by cases h), i64Neg_ok h2, i64Neg_ok h1, Int64.neg_neg]
  | rational r =>
    have hr : (SmartNumVal.rational r : SmartNumVal F).OK := hv ▸ ha.ok
    obtain ⟨t0, t1, t2⟩ := ta r hv
    rw [SmartNum.exact?, hv] at t0 t1 t2
    rw [hv] at h1
    have hn := SmartNumVal.neg_ok hr h1
    simp only [SmartNumVal.neg, RationalNum.neg, Res.bind_eq_ok, Res.pure_eq, Res.ok.injEq] at h1
    obtain ⟨_, ⟨s, h1, rfl⟩, rfl⟩ := h1
    have e1 : (SmartNumVal.rational { r with sign := s } : SmartNumVal F).exact? = (SmartNumVal.rational r : SmartNumVal F).exact?.map (- ·) := by
      rw [i64Neg_ok h1]
      simp only [SmartNumVal.exact?]
      split_ifs with hd
      · rfl
      · simp only [Option.map_some, Option.some.injEq, RationalNum.value]
        have hs : (-r.sign).toInt = -r.sign.toInt := by
          rcases hr r rfl with (hs | hs) | ⟨hs, -⟩ <;> rw [hs] <;> rfl
        rw [hs]; push_cast; ring
    have e2 : (SmartNumVal.rational { r with sign := s } : SmartNumVal F).isZero = false := by
      rw [Bool.eq_false_iff, ne_eq, SmartNumVal.isZero_iff hn, e1]
      intro h
      obtain ⟨q, hq, hq'⟩ := Option.map_eq_some_iff.1 h
      exact t0 (by rw [hq, neg_eq_zero.1 hq'])
    have e3 : (SmartNumVal.rational { r with sign := s } : SmartNumVal F).isOne = false := by
      rw [Bool.eq_false_iff, ne_eq, SmartNumVal.isOne_iff hn, e1]
      intro h
      obtain ⟨q, hq, hq'⟩ := Option.map_eq_some_iff.1 h
      exact t2 (by rw [hq, ← hq', neg_neg])
    rw [wrapVal_value (fun _ _ => ⟨e2, e3⟩)] at h2
    simp only [SmartNumVal.neg, RationalNum.neg, Res.bind_eq_ok, Res.pure_eq, Res.ok.injEq] at h2
    obtain ⟨_, ⟨s', h2, rfl⟩, rfl⟩ := h2
    have e4 : ({ sign := s', nominator := r.nominator, denominator := r.denominator } : RationalNum) = r := by
      rw [i64Neg_ok h2, i64Neg_ok h1, Int64.neg_neg]
    rw [e4]
    refine wrapVal_value fun _ _ => ⟨?_, ?_⟩
    · rw [Bool.eq_false_iff, ne_eq, SmartNumVal.isZero_iff hr]; exact t0
    · rw [Bool.eq_false_iff, ne_eq, SmartNumVal.isOne_iff hr]; exact t1

/-! ### simplification does not change what a formula computes -/

/-- `t` computes the number `n`, all numbers on the way being tidy. -/
structure Comp (m : Mode) (ρ : Variable → SmartNum F) (t : Formula F) (n : SmartNum F) : Prop where
  ok : t.compute m ρ = .ok n
  tidy : t.AllTidy m ρ
  wf : WF SmartNum.Valid t.expr

variable {m : Mode} {ρ : Variable → SmartNum F}

theorem tidy_of {t : Formula F} {n : SmartNum F} (h : t.compute m ρ = .ok n) (ht : t.AllTidy m ρ) : Tidy n := by
  cases t with
  | num k => cases h; exact ht
  | var v => cases h; exact ht
  | neg a => exact ht.2 n h
  | add a b => exact ht.2.2 n h
  | sub a b => exact ht.2.2 n h
  | mul a b => exact ht.2.2 n h
  | div a b => exact ht.2.2 n h

theorem valid_of (hρ : ∀ v, (ρ v).Valid) {t : Formula F} {n : SmartNum F} (h : t.compute m ρ = .ok n) (hw : WF SmartNum.Valid t.expr) :
    n.Valid := by
  induction t generalizing n with
  | num k => cases h; exact WF.num_iff.1 hw
  | var v => cases h; exact hρ v
  | neg a i =>
    simp only [compute, Res.bind_eq_ok] at h
    obtain ⟨x, hx, h⟩ := h
    exact SmartNum.valid_neg (i hx (WF.neg_iff.1 hw)) h
  | add a b i j =>
    simp only [compute, Res.bind_eq_ok] at h
    obtain ⟨x, hx, y, hy, h⟩ := h
    obtain ⟨wa, wb⟩ := WF.add_iff.1 hw
    exact SmartNum.valid_add (i hx wa) (j hy wb) h
  | sub a b i j =>
    simp only [compute, Res.bind_eq_ok] at h
    obtain ⟨x, hx, y, hy, h⟩ := h
    obtain ⟨wa, wb⟩ := WF.sub_iff.1 hw
    exact SmartNum.valid_sub (i hx wa) (j hy wb) h
  | mul a b i j =>
    simp only [compute, Res.bind_eq_ok] at h
    obtain ⟨x, hx, y, hy, h⟩ := h
    obtain ⟨wa, wb⟩ := WF.mul_iff.1 hw
    exact SmartNum.valid_mul (i hx wa) (j hy wb) h
  | div a b i j =>
    simp only [compute, Res.bind_eq_ok] at h
    obtain ⟨x, hx, y, hy, h⟩ := h
    obtain ⟨wa, wb⟩ := WF.div_iff.1 hw
    exact SmartNum.valid_div (i hx wa) (j hy wb) h

omit [FloatOps F] in
theorem num_of_isNum {t : Formula F} (h : t.expr.isNum = true) : ∃ n, t = .num n := by
  cases t with
  | num n => exact ⟨n, rfl⟩
  | _ => cases h

omit [FloatOps F] in
theorem num_of_isZero {t : Formula F} (h : t.expr.isZero = true) : ∃ n, t = .num n ∧ n.isZero = true := by
  obtain ⟨n, rfl⟩ := num_of_isNum (isZero_isNum h)
  exact ⟨n, rfl, h⟩

omit [FloatOps F] in
theorem num_of_isOne {t : Formula F} (h : t.expr.isOne = true) : ∃ n, t = .num n ∧ n.isOne = true := by
  obtain ⟨n, rfl⟩ := num_of_isNum (isOne_isNum h)
  exact ⟨n, rfl, h⟩

theorem comp_num {n : SmartNum F} (hv : n.Valid) (ht : Tidy n) : Comp m ρ (.num n) n := ⟨rfl, ht, .num n hv⟩

theorem comp_zero : Comp m ρ (.num (SmartNum.ofI64 0)) (SmartNum.ofI64 0) :=
  comp_num (SmartNum.valid_ofI64 0) fun r h => by cases h

omit [FloatOps F] in
theorem congr_tidy {x y : SmartNum F} (h : x.value = y.value) (hy : Tidy y) : Tidy x := fun r hr => by
  rw [exact_of_value h]; exact hy r (h ▸ hr)

section rules
variable (hρ : ∀ v, (ρ v).Valid) {a b : Formula F} {x y z : SmartNum F} (ha : Comp m ρ a x) (hb : Comp m ρ b y)
include hρ ha hb

theorem add_rule (hz : x.add m y = .ok z) (tz : Tidy z) :
    ∃ t n, addEvalRule m [.ok a.expr, .ok b.expr] = .ok t.expr ∧ Comp m ρ t n ∧ n.value = z.value := by
  have vx := valid_of hρ ha.ok ha.wf
  have vy := valid_of hρ hb.ok hb.wf
  unfold addEvalRule
  simp only [pop_one, pop_two, Res.ok_bind]
  split_ifs with h1 h2 h3
  · rw [Bool.and_eq_true] at h1
    obtain ⟨x', rfl⟩ := num_of_isNum h1.1
    obtain ⟨y', rfl⟩ := num_of_isNum h1.2
    cases ha.ok; cases hb.ok
    exact ⟨.num z, z, by simp only [expr, numUnwrap_ofNum, Res.ok_bind, hz]; rfl, comp_num (SmartNum.valid_add vx vy hz) tz, rfl⟩
  · obtain ⟨x', rfl, h⟩ := num_of_isZero h2
    cases ha.ok
    unfold SmartNum.add at hz
    rw [if_pos h] at hz
    cases hz
    exact ⟨b, _, rfl, hb, rfl⟩
  · obtain ⟨y', rfl, h⟩ := num_of_isZero h3
    cases hb.ok
    unfold SmartNum.add at hz
    rw [if_pos h] at hz
    split_ifs at hz with h4
    · cases hz
      refine ⟨a, x, rfl, ha, ?_⟩
      rw [tidy_zero (tidy_of ha.ok ha.tidy) (vx.zero_iff.1 h4), tidy_zero tz (vy.zero_iff.1 h)]
    · cases hz; exact ⟨a, _, rfl, ha, rfl⟩
  · refine ⟨.add a b, z, rfl, ⟨?_, ⟨ha.tidy, hb.tidy, fun n hn => ?_⟩, .add _ _ ha.wf hb.wf⟩, rfl⟩
    · rw [compute, ha.ok, hb.ok]; exact hz
    · rw [compute, ha.ok, hb.ok] at hn; cases hz.symm.trans hn; exact tz

theorem sub_rule (hz : x.sub m y = .ok z) (tz : Tidy z) :
    ∃ t n, subEvalRule m [.ok a.expr, .ok b.expr] = .ok t.expr ∧ Comp m ρ t n ∧ n.value = z.value := by
  have vx := valid_of hρ ha.ok ha.wf
  have vy := valid_of hρ hb.ok hb.wf
  unfold subEvalRule
  simp only [pop_one, pop_two, Res.ok_bind]
  split_ifs with h1 h2 h3
  · rw [Bool.and_eq_true] at h1
    obtain ⟨x', rfl⟩ := num_of_isNum h1.1
    obtain ⟨y', rfl⟩ := num_of_isNum h1.2
    cases ha.ok; cases hb.ok
    exact ⟨.num z, z, by simp only [expr, numUnwrap_ofNum, Res.ok_bind, hz]; rfl, comp_num (SmartNum.valid_sub vx vy hz) tz, rfl⟩
  · obtain ⟨x', rfl, h⟩ := num_of_isZero h2
    cases ha.ok
    unfold SmartNum.sub at hz
    rw [if_pos h] at hz
    refine ⟨.neg b, z, rfl, ⟨?_, ⟨hb.tidy, fun n hn => ?_⟩, .neg _ hb.wf⟩, rfl⟩
    · rw [compute, hb.ok]; exact hz
    · rw [compute, hb.ok] at hn; cases hz.symm.trans hn; exact tz
  · obtain ⟨y', rfl, h⟩ := num_of_isZero h3
    cases hb.ok
    unfold SmartNum.sub at hz
    split_ifs at hz with h4
    · refine ⟨a, x, rfl, ha, ?_⟩
      have hy := tidy_zero hb.tidy (vy.zero_iff.1 h)
      rw [tidy_zero (tidy_of ha.ok ha.tidy) (vx.zero_iff.1 h4)]
      unfold SmartNum.neg at hz
      rw [hy] at hz
      have : z = SmartNum.ofI64 0 := by cases m <;> exact (Res.ok.inj hz).symm
      rw [this]; rfl
    · cases hz; exact ⟨a, _, rfl, ha, rfl⟩
  · refine ⟨.sub a b, z, rfl, ⟨?_, ⟨ha.tidy, hb.tidy, fun n hn => ?_⟩, .sub _ _ ha.wf hb.wf⟩, rfl⟩
    · rw [compute, ha.ok, hb.ok]; exact hz
    · rw [compute, ha.ok, hb.ok] at hn; cases hz.symm.trans hn; exact tz

theorem mul_rule (hz : x.mul m y = .ok z) (tz : Tidy z) :
    ∃ t n, mulEvalRule m [.ok a.expr, .ok b.expr] = .ok t.expr ∧ Comp m ρ t n ∧ n.value = z.value := by
  have vx := valid_of hρ ha.ok ha.wf
  have vy := valid_of hρ hb.ok hb.wf
  have tx := tidy_of ha.ok ha.tidy
  have ty := tidy_of hb.ok hb.tidy
  unfold mulEvalRule
  simp only [pop_one, pop_two, Res.ok_bind]
  split_ifs with h1 h2 h3 h4
  · rw [Bool.and_eq_true] at h1
    obtain ⟨x', rfl⟩ := num_of_isNum h1.1
    obtain ⟨y', rfl⟩ := num_of_isNum h1.2
    cases ha.ok; cases hb.ok
    exact ⟨.num z, z, by simp only [expr, numUnwrap_ofNum, Res.ok_bind, hz]; rfl, comp_num (SmartNum.valid_mul vx vy hz) tz, rfl⟩
  · refine ⟨.num (SmartNum.ofI64 0), _, rfl, comp_zero, ?_⟩
    rw [mul_zero vx vy tx ty ?_ hz]
    · rfl
    rw [Bool.or_eq_true] at h2
    rcases h2 with h2 | h2
    · obtain ⟨x', rfl, h⟩ := num_of_isZero h2
      cases ha.ok; exact .inl (vx.zero_iff.1 h)
    · obtain ⟨y', rfl, h⟩ := num_of_isZero h2
      cases hb.ok; exact .inr (vy.zero_iff.1 h)
  · obtain ⟨x', rfl, h⟩ := num_of_isOne h3
    cases ha.ok
    unfold SmartNum.mul at hz
    rw [if_pos h] at hz
    cases hz
    exact ⟨b, _, rfl, hb, rfl⟩
  · obtain ⟨y', rfl, h⟩ := num_of_isOne h4
    cases hb.ok
    unfold SmartNum.mul at hz
    rw [if_pos h] at hz
    split_ifs at hz with h5
    · cases hz
      refine ⟨a, x, rfl, ha, ?_⟩
      rw [tidy_one tx (vx.one_iff.1 h5), tidy_one tz (vy.one_iff.1 h)]
    · cases hz; exact ⟨a, _, rfl, ha, rfl⟩
  · refine ⟨.mul a b, z, rfl, ⟨?_, ⟨ha.tidy, hb.tidy, fun n hn => ?_⟩, .mul _ _ ha.wf hb.wf⟩, rfl⟩
    · rw [compute, ha.ok, hb.ok]; exact hz
    · rw [compute, ha.ok, hb.ok] at hn; cases hz.symm.trans hn; exact tz

theorem div_rule (hz : x.div m y = .ok z) (tz : Tidy z) :
    ∃ t n, divEvalRule m [.ok a.expr, .ok b.expr] = .ok t.expr ∧ Comp m ρ t n ∧ n.value = z.value := by
  have vx := valid_of hρ ha.ok ha.wf
  have vy := valid_of hρ hb.ok hb.wf
  unfold divEvalRule
  simp only [pop_one, pop_two, Res.ok_bind]
  split_ifs with h1 h2
  · rw [Bool.and_eq_true] at h1
    obtain ⟨x', rfl⟩ := num_of_isNum h1.1
    obtain ⟨y', rfl⟩ := num_of_isNum h1.2
    cases ha.ok; cases hb.ok
    exact ⟨.num z, z, by simp only [expr, numUnwrap_ofNum, Res.ok_bind, hz]; rfl, comp_num (SmartNum.valid_div vx vy hz) tz, rfl⟩
  · obtain ⟨x', rfl, h⟩ := num_of_isZero h2
    cases ha.ok
    refine ⟨.num (SmartNum.ofI64 0), _, rfl, comp_zero, ?_⟩
    rw [div_zero vx (vx.zero_iff.1 h) hz]; rfl
  · refine ⟨.div a b, z, rfl, ⟨?_, ⟨ha.tidy, hb.tidy, fun n hn => ?_⟩, .div _ _ ha.wf hb.wf⟩, rfl⟩
    · rw [compute, ha.ok, hb.ok]; exact hz
    · rw [compute, ha.ok, hb.ok] at hn; cases hz.symm.trans hn; exact tz
end rules

theorem neg_rule (law : ∀ f : F, FloatOps.neg (FloatOps.neg f) = f) (hρ : ∀ v, (ρ v).Valid) {a : Formula F} {x z : SmartNum F}
    (ha : Comp m ρ a x) (hz : x.neg m = .ok z) (tz : Tidy z) :
    ∃ t n, negEvalRule m [.ok a.expr] = .ok t.expr ∧ Comp m ρ t n ∧ n.value = z.value := by
  have vx := valid_of hρ ha.ok ha.wf
  have other : negEvalRule m [.ok a.expr] = .ok a.expr.neg →
      ∃ t n, negEvalRule m [.ok a.expr] = .ok t.expr ∧ Comp m ρ t n ∧ n.value = z.value := fun h => by
    refine ⟨.neg a, z, h, ⟨?_, ⟨ha.tidy, fun n hn => ?_⟩, .neg _ ha.wf⟩, rfl⟩
    · rw [compute, ha.ok]; exact hz
    · rw [compute, ha.ok] at hn; cases hz.symm.trans hn; exact tz
  cases a with
  | num k =>
    cases ha.ok
    exact ⟨.num z, z, by simp [negEvalRule, pop_one, expr, hz], comp_num (SmartNum.valid_neg vx hz) tz, rfl⟩
  | neg c =>
    have h1 := ha.ok
    simp only [compute, Res.bind_eq_ok] at h1
    obtain ⟨k, hk, h1⟩ := h1
    have wc := WF.neg_iff.1 ha.wf
    exact ⟨c, k, rfl, ⟨hk, ha.tidy.1, wc⟩, (neg_neg_same law (valid_of hρ hk wc) (tidy_of hk ha.tidy.1) h1 hz).symm⟩
  | var v => exact other rfl
  | add c d => exact other rfl
  | sub c d => exact other rfl
  | mul c d => exact other rfl
  | div c d => exact other rfl

theorem simplify (law : ∀ f : F, FloatOps.neg (FloatOps.neg f) = f) (hρ : ∀ v, (ρ v).Valid) {t : Formula F} {n : SmartNum F}
    (h : Comp m ρ t n) : ∃ t' n', t.expr.numAggregate m = .ok t'.expr ∧ Comp m ρ t' n' ∧ n'.value = n.value := by
  induction t generalizing n with
  | num k => exact ⟨.num k, n, numAggregate_ofNum m k, h, rfl⟩
  | var v => exact ⟨.var v, n, numAggregate_ofVar m v, h, rfl⟩
  | neg a i =>
    have h1 := h.ok
    simp only [compute, Res.bind_eq_ok] at h1
    obtain ⟨x, hx, h1⟩ := h1
    obtain ⟨a', x', e1, c1, s1⟩ := i ⟨hx, h.tidy.1, WF.neg_iff.1 h.wf⟩
    rw [expr, numAggregate_neg, e1]
    exact neg_rule law hρ c1 (neg_same s1 h1) (tidy_of h.ok h.tidy)
  | add a b i j =>
    have h1 := h.ok
    simp only [compute, Res.bind_eq_ok] at h1
    obtain ⟨x, hx, y, hy, h1⟩ := h1
    obtain ⟨wa, wb⟩ := WF.add_iff.1 h.wf
    obtain ⟨a', x', e1, c1, s1⟩ := i ⟨hx, h.tidy.1, wa⟩
    obtain ⟨b', y', e2, c2, s2⟩ := j ⟨hy, h.tidy.2.1, wb⟩
    obtain ⟨z, hz, s3⟩ := add_same (valid_of hρ hx wa) (valid_of hρ c1.ok c1.wf) (valid_of hρ hy wb) (valid_of hρ c2.ok c2.wf) s1 s2 h1
    rw [expr, numAggregate_add, e1, e2]
    obtain ⟨t', n', e3, c3, s4⟩ := add_rule hρ c1 c2 hz (congr_tidy s3 (tidy_of h.ok h.tidy))
    exact ⟨t', n', e3, c3, s4.trans s3⟩
  | sub a b i j =>
    have h1 := h.ok
    simp only [compute, Res.bind_eq_ok] at h1
    obtain ⟨x, hx, y, hy, h1⟩ := h1
    obtain ⟨wa, wb⟩ := WF.sub_iff.1 h.wf
    obtain ⟨a', x', e1, c1, s1⟩ := i ⟨hx, h.tidy.1, wa⟩
    obtain ⟨b', y', e2, c2, s2⟩ := j ⟨hy, h.tidy.2.1, wb⟩
    obtain ⟨z, hz, s3⟩ := sub_same (valid_of hρ hx wa) (valid_of hρ c1.ok c1.wf) (valid_of hρ hy wb) (valid_of hρ c2.ok c2.wf) s1 s2 h1
    rw [expr, numAggregate_sub, e1, e2]
    obtain ⟨t', n', e3, c3, s4⟩ := sub_rule hρ c1 c2 hz (congr_tidy s3 (tidy_of h.ok h.tidy))
    exact ⟨t', n', e3, c3, s4.trans s3⟩
  | mul a b i j =>
    have h1 := h.ok
    simp only [compute, Res.bind_eq_ok] at h1
    obtain ⟨x, hx, y, hy, h1⟩ := h1
    obtain ⟨wa, wb⟩ := WF.mul_iff.1 h.wf
    obtain ⟨a', x', e1, c1, s1⟩ := i ⟨hx, h.tidy.1, wa⟩
    obtain ⟨b', y', e2, c2, s2⟩ := j ⟨hy, h.tidy.2.1, wb⟩
    obtain ⟨z, hz, s3⟩ := mul_same (valid_of hρ hx wa) (valid_of hρ c1.ok c1.wf) (valid_of hρ hy wb) (valid_of hρ c2.ok c2.wf) s1 s2 h1
    rw [expr, numAggregate_mul, e1, e2]
    obtain ⟨t', n', e3, c3, s4⟩ := mul_rule hρ c1 c2 hz (congr_tidy s3 (tidy_of h.ok h.tidy))
    exact ⟨t', n', e3, c3, s4.trans s3⟩
  | div a b i j =>
    have h1 := h.ok
    simp only [compute, Res.bind_eq_ok] at h1
    obtain ⟨x, hx, y, hy, h1⟩ := h1
    obtain ⟨wa, wb⟩ := WF.div_iff.1 h.wf
    obtain ⟨a', x', e1, c1, s1⟩ := i ⟨hx, h.tidy.1, wa⟩
    obtain ⟨b', y', e2, c2, s2⟩ := j ⟨hy, h.tidy.2.1, wb⟩
    obtain ⟨z, hz, s3⟩ := div_same s1 s2 h1
    rw [expr, numAggregate_div, e1, e2]
    obtain ⟨t', n', e3, c3, s4⟩ := div_rule hρ c1 c2 hz (congr_tidy s3 (tidy_of h.ok h.tidy))
    exact ⟨t', n', e3, c3, s4.trans s3⟩

/-- Formulas of floats. -/
theorem compute_float (m : Mode) {ρ : Variable → F} {t : Formula F} (hw : WF SmartNum.Valid t.expr) {f : F} (h : t.float? ρ = some f) :
    ∃ n, t.compute m (fun v => SmartNum.ofF64 (ρ v)) = .ok n ∧ n.value = .real f := by
  have flags : ∀ {n : SmartNum F} {f : F}, n.Valid → n.value = .real f →
      n.isZero = false ∧ n.isOne = false ∧ n.value.isZero = false ∧ n.value.isF ∧ n.value.toF64 = f := by
    intro n f hn hf
    refine ⟨?_, ?_, ?_, ?_, ?_⟩
    · rw [Bool.eq_false_iff, ne_eq, hn.zero_iff, SmartNum.exact?, hf]; simp [SmartNumVal.exact?]
    · rw [Bool.eq_false_iff, ne_eq, hn.one_iff, SmartNum.exact?, hf]; simp [SmartNumVal.exact?]
    · rw [hf]; rfl
    · rw [hf]; trivial
    · rw [hf]; rfl
  have hρ : ∀ v, (SmartNum.ofF64 (ρ v)).Valid := fun v => (SmartNum.Reachable.ofF64 (m := m) (ρ v)).valid
  induction t generalizing f with
  | num n =>
    refine ⟨n, rfl, ?_⟩
    simp only [float?] at h
    split at h
    · rename_i g hg; cases h; exact hg
    · cases h
  | var v => cases h; exact ⟨_, rfl, rfl⟩
  | neg a i =>
    simp only [float?, Option.bind_eq_bind, Option.bind_eq_some_iff] at h
    obtain ⟨f, hf, h⟩ := h
    cases h
    obtain ⟨x, hx, ex⟩ := i (WF.neg_iff.1 hw) hf
    exact ⟨_, by rw [compute, hx, Res.ok_bind, SmartNum.neg, ex]; rfl, rfl⟩
  | add a b i j =>
    simp only [float?, Option.bind_eq_bind, Option.bind_eq_some_iff] at h
    obtain ⟨f, hf, g, hg, h⟩ := h
    cases h
    obtain ⟨wa, wb⟩ := WF.add_iff.1 hw
    obtain ⟨x, hx, ex⟩ := i wa hf
    obtain ⟨y, hy, ey⟩ := j wb hg
    obtain ⟨x0, x1, x2, x3, x4⟩ := flags (valid_of hρ hx wa) ex
    obtain ⟨y0, y1, y2, y3, y4⟩ := flags (valid_of hρ hy wb) ey
    refine ⟨_, by
      rw [compute, hx, hy, Res.ok_bind, Res.ok_bind, SmartNum.add, if_neg (by simp [x0]), if_neg (by simp [y0]),
        Rounding.add_float (.inl x3), x4, y4]; rfl, rfl⟩
  | sub a b i j =>
    simp only [float?, Option.bind_eq_bind, Option.bind_eq_some_iff] at h
    obtain ⟨f, hf, g, hg, h⟩ := h
    cases h
    obtain ⟨wa, wb⟩ := WF.sub_iff.1 hw
    obtain ⟨x, hx, ex⟩ := i wa hf
    obtain ⟨y, hy, ey⟩ := j wb hg
    obtain ⟨x0, x1, x2, x3, x4⟩ := flags (valid_of hρ hx wa) ex
    obtain ⟨y0, y1, y2, y3, y4⟩ := flags (valid_of hρ hy wb) ey
    refine ⟨_, by
      rw [compute, hx, hy, Res.ok_bind, Res.ok_bind, SmartNum.sub, if_neg (by simp [x0]), if_neg (by simp [y0]),
        Rounding.sub_float (.inl x3), x4, y4]; rfl, rfl⟩
  | mul a b i j =>
    simp only [float?, Option.bind_eq_bind, Option.bind_eq_some_iff] at h
    obtain ⟨f, hf, g, hg, h⟩ := h
    cases h
    obtain ⟨wa, wb⟩ := WF.mul_iff.1 hw
    obtain ⟨x, hx, ex⟩ := i wa hf
    obtain ⟨y, hy, ey⟩ := j wb hg
    obtain ⟨x0, x1, x2, x3, x4⟩ := flags (valid_of hρ hx wa) ex
    obtain ⟨y0, y1, y2, y3, y4⟩ := flags (valid_of hρ hy wb) ey
    refine ⟨_, by
      rw [compute, hx, hy, Res.ok_bind, Res.ok_bind, SmartNum.mul, if_neg (by simp [x1]), if_neg (by simp [y1]),
        Rounding.mul_float (.inl x3) (by simp [x2, y2]), x4, y4]; rfl, rfl⟩
  | div a b i j =>
    simp only [float?, Option.bind_eq_bind, Option.bind_eq_some_iff] at h
    obtain ⟨f, hf, g, hg, h⟩ := h
    cases h
    obtain ⟨wa, wb⟩ := WF.div_iff.1 hw
    obtain ⟨x, hx, ex⟩ := i wa hf
    obtain ⟨y, hy, ey⟩ := j wb hg
    obtain ⟨x0, x1, x2, x3, x4⟩ := flags (valid_of hρ hx wa) ex
    obtain ⟨y0, y1, y2, y3, y4⟩ := flags (valid_of hρ hy wb) ey
    refine ⟨_, by
      rw [compute, hx, hy, Res.ok_bind, Res.ok_bind, SmartNum.div,
        Rounding.div_float (.inl x3) (by simp [x2]), x4, y4]; rfl, rfl⟩

end Formula

/-- C89: a formula whose numbers are all floats, with floats put for the variables, simplifies in every build to the float
obtained by the same operations of f64 in the same order, to the last bit. -/
theorem C89_floats (m : Mode) (ρ : Variable → F) (t : Formula F) (ht : Built m t.expr) (f : F) (hf : t.float? ρ = some f)
    (bs : List (Variable × SmartNum F)) (h : Gives (fun v => SmartNum.ofF64 (ρ v)) bs t.expr) :
    ∃ s n, substituteAll t.expr bs = .ok s ∧ s.numAggregate m = .ok (ofNum n) ∧ n.value = .real f := by
  obtain ⟨s, h1, h2⟩ := C89_evaluation m _ t bs h
  obtain ⟨n, h3, h4⟩ := t.compute_float m ht.valid hf
  exact ⟨s, n, h1, by rw [h2, h3]; rfl, h4⟩

/-- C89: simplifying a formula before putting numbers for its variables does not change the number obtained by simplifying
afterwards, not even the last bit of a float. `law` is a law of every IEEE format (see `C89_f64`). -/
theorem C89_simplify_first (law : ∀ f : F, FloatOps.neg (FloatOps.neg f) = f) (m : Mode) (ρ : Variable → SmartNum F)
    (t : Formula F) (ht : Built m t.expr) (hρ : ∀ v, (ρ v).Reachable m) (tidy : t.AllTidy m ρ)
    (bs : List (Variable × SmartNum F)) (h : Gives ρ bs t.expr) (s : Expr F) (n : SmartNum F)
    (hs : substituteAll t.expr bs = .ok s) (hn : s.numAggregate m = .ok (ofNum n)) :
    ∃ e s' n', t.expr.numAggregate m = .ok e ∧ substituteAll e bs = .ok s' ∧ s'.numAggregate m = .ok (ofNum n') ∧
      n'.value = n.value := by
  obtain ⟨s₁, h1, h2⟩ := C89_evaluation m ρ t bs h
  cases hs.symm.trans h1
  rw [hn] at h2
  obtain ⟨k, hk, h3⟩ := Res.bind_eq_ok.1 h2.symm
  cases h3
  obtain ⟨t', n', h4, c, h5⟩ := Formula.simplify law (fun v => (hρ v).valid) ⟨hk, tidy, ht.valid⟩
  obtain ⟨s', h6, h7⟩ := C89_evaluation m ρ t' bs fun v hv => h v (C22_no_new_variables m _ _ ht h4 v hv)
  exact ⟨_, s', n', h4, h6, by rw [h7, c.ok]; rfl, h5⟩

/-- C89: the same for the doubles, without any assumption about them. -/
theorem C89_f64 (m : Mode) (ρ : Variable → SmartNum Float.Model)
    (t : Formula Float.Model) (ht : Built m t.expr) (hρ : ∀ v, (ρ v).Reachable m) (tidy : t.AllTidy m ρ)
    (bs : List (Variable × SmartNum Float.Model)) (h : Gives ρ bs t.expr) (s : Expr Float.Model) (n : SmartNum Float.Model)
    (hs : substituteAll t.expr bs = .ok s) (hn : s.numAggregate m = .ok (ofNum n)) :
    ∃ e s' n', t.expr.numAggregate m = .ok e ∧ substituteAll e bs = .ok s' ∧ s'.numAggregate m = .ok (ofNum n') ∧
      n'.value = n.value :=
  C89_simplify_first F64.neg_neg m ρ t ht hρ tidy bs h s n hs hn

/-- Non-vacuous: `(1 * x + 0) + (-(-y))` with `x = 0.1`, `y = 0.2` has the hypotheses of the theorems above, simplifies to
`x + y`, and gives 0.30000000000000004 both ways. -/
theorem C89_instance (m : Mode) : ∃ (ρ : Variable → SmartNum Float.Model) (t : Formula Float.Model)
    (bs : List (Variable × SmartNum Float.Model)) (s : Expr Float.Model),
    Built m t.expr ∧ (∀ v, (ρ v).Reachable m) ∧ t.AllTidy m ρ ∧ Gives ρ bs t.expr ∧
    substituteAll t.expr bs = .ok s ∧
    s.numAggregate m = .ok (ofNum (.ofF64 (Float.Model.ofBits 0x3FD3333333333334))) ∧
    t.expr.numAggregate m = .ok ((ofVar ⟨"x"⟩).add (ofVar ⟨"y"⟩)) := by
  refine ⟨fun v => if v.name = "x" then .ofF64 (Float.Model.ofBits 0x3FB999999999999A) else .ofF64 (Float.Model.ofBits 0x3FC999999999999A),
    .add (.add (.mul (.num (.ofI64 1)) (.var ⟨"x"⟩)) (.num (.ofI64 0))) (.neg (.neg (.var ⟨"y"⟩))),
    [(⟨"x"⟩, .ofF64 (Float.Model.ofBits 0x3FB999999999999A)), (⟨"y"⟩, .ofF64 (Float.Model.ofBits 0x3FC999999999999A))], _,
    ?_, ?_, ?_, ?_, rfl, by rfl, by rfl⟩
  · exact .add _ _ (.add _ _ (.mul _ _ (.num _ (.ofI64 1)) (.var _)) (.num _ (.ofI64 0))) (.neg _ (.neg _ (.var _)))
  · intro v
    show SmartNum.Reachable m (ite _ _ _)
    split_ifs <;> exact .ofF64 _
  · have d : ∀ f : Float.Model, Tidy (SmartNum.ofF64 f) := fun f r h => by cases h
    have i : ∀ k, Tidy (SmartNum.ofI64 k : SmartNum Float.Model) := fun k r h => by
      unfold SmartNum.ofI64 SmartNum.ofVal at h
      split_ifs at h <;> cases h
    refine ⟨⟨⟨i 1, d _, fun n h => ?_⟩, i 0, fun n h => ?_⟩, ⟨⟨d _, fun n h => ?_⟩, fun n h => ?_⟩, fun n h => ?_⟩ <;>
      (cases h; exact d _)
  · intro v hv
    simp only [Formula.expr, occurs_add, occurs_mul, occurs_neg, occurs_ofVar, occurs_ofNum] at hv
    rcases hv with ((hv | hv) | hv) | hv <;> first | exact hv.elim | (subst hv; rfl)

/-- Why the numbers must be tidy: for `x` = -1 written as the fraction -1/1, `-(-x)` is the integer -1, and simplifying first
gives the fraction back. -/
theorem C89_tidy_needed (m : Mode) : ∃ x : SmartNum F, SmartNum.newRational m (-1) 1 1 = .ok (some x) ∧
    (ofNum x).neg.neg.numAggregate m = .ok (ofNum (.ofI64 (-1))) ∧
    (ofVar ⟨"x"⟩ : Expr F).neg.neg.numAggregate m = .ok (ofVar ⟨"x"⟩) ∧
    (ofVar ⟨"x"⟩ : Expr F).substitute ⟨"x"⟩ (ofNum x) = .ok (ofNum x) ∧ (ofNum x).numAggregate m = .ok (ofNum x) ∧
    x.value ≠ (SmartNum.ofI64 (-1)).value := by
  refine ⟨{ value := .rational ⟨-1, 1, 1⟩, tag := .nothing }, by cases m <;> rfl, by cases m <;> rfl, rfl, rfl, rfl, fun h => nomatch h⟩

end SymRust
