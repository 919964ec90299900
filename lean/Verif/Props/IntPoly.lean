import Verif.Spec.IntPoly
import Verif.Props.Overflow
import Verif.Props.Structure
import Verif.Proofs.Deriv
import Verif.Proofs.Subst
import Mathlib.Algebra.MvPolynomial.PDeriv
import Mathlib.Algebra.MvPolynomial.Monad
import Mathlib.Data.ZMod.Basic
/-! # Polynomials with integer coefficients: property C80 -/

namespace SymRust
variable {F : Type}
open Expr MvPolynomial

section iffs
variable {R : Type} [CommRing R] {a b : Expr F} {P : MvPolynomial Variable R}

theorem writes_num {n : SmartNum F} (h : Writes R (ofNum n) P) : ∃ v, n = SmartNum.ofI64 v ∧ P = C (v.toInt : R) := by
  generalize he : ofNum n = e at h
  cases h <;> expr_inj at he
  exact ⟨_, he, rfl⟩
theorem writes_var {v : Variable} (h : Writes R (ofVar v : Expr F) P) : P = X v := by
  generalize he : (ofVar v : Expr F) = e at h
  cases h <;> expr_inj at he
  rw [Variable.name_eq.1 he]
theorem writes_neg (h : Writes R a.neg P) : ∃ p, Writes R a p ∧ P = -p := by
  generalize he : a.neg = e at h
  cases h <;> expr_inj at he
  subst he; exact ⟨_, ‹_›, rfl⟩
theorem writes_add (h : Writes R (a.add b) P) : ∃ p q, Writes R a p ∧ Writes R b q ∧ P = p + q := by
  generalize he : a.add b = e at h
  cases h <;> expr_inj at he
  obtain ⟨rfl, rfl⟩ := he; exact ⟨_, _, ‹_›, ‹_›, rfl⟩
theorem writes_sub (h : Writes R (a.sub b) P) : ∃ p q, Writes R a p ∧ Writes R b q ∧ P = p - q := by
  generalize he : a.sub b = e at h
  cases h <;> expr_inj at he
  obtain ⟨rfl, rfl⟩ := he; exact ⟨_, _, ‹_›, ‹_›, rfl⟩
theorem writes_mul (h : Writes R (a.mul b) P) : ∃ p q, Writes R a p ∧ Writes R b q ∧ P = p * q := by
  generalize he : a.mul b = e at h
  cases h <;> expr_inj at he
  obtain ⟨rfl, rfl⟩ := he; exact ⟨_, _, ‹_›, ‹_›, rfl⟩
theorem writes_div (h : Writes R (a.div b) P) : False := by
  generalize he : a.div b = e at h
  cases h <;> expr_inj at he
theorem writes_pow (h : Writes R (a.pow b) P) : False := by
  generalize he : a.pow b = e at h
  cases h <;> expr_inj at he
theorem writes_sin (h : Writes R a.sin P) : False := by
  generalize he : a.sin = e at h
  cases h <;> expr_inj at he
theorem writes_cos (h : Writes R a.cos P) : False := by
  generalize he : a.cos = e at h
  cases h <;> expr_inj at he
theorem writes_exp (h : Writes R a.exp P) : False := by
  generalize he : a.exp = e at h
  cases h <;> expr_inj at he
theorem writes_ln (h : Writes R a.ln P) : False := by
  generalize he : a.ln = e at h
  cases h <;> expr_inj at he

theorem Writes.unique (h : Writes R a P) {Q : MvPolynomial Variable R} (h' : Writes R a Q) : P = Q := by
  induction h generalizing Q with
  | int v =>
    obtain ⟨w, h1, rfl⟩ := writes_num h'
    have h1 := congrArg SmartNum.value h1
    simp only [SmartNum.ofI64, SmartNum.ofVal, SmartNumVal.ofI64, SmartNumVal.integer.injEq] at h1
    rw [h1]
  | var v => rw [writes_var h']
  | neg _ ih => obtain ⟨p, h1, rfl⟩ := writes_neg h'; rw [ih h1]
  | add _ _ i j => obtain ⟨p, q, h1, h2, rfl⟩ := writes_add h'; rw [i h1, j h2]
  | sub _ _ i j => obtain ⟨p, q, h1, h2, rfl⟩ := writes_sub h'; rw [i h1, j h2]
  | mul _ _ i j => obtain ⟨p, q, h1, h2, rfl⟩ := writes_mul h'; rw [i h1, j h2]

theorem Writes.map {S : Type} [CommRing S] (f : R →+* S) (h : Writes R a P) : Writes S a (MvPolynomial.map f P) := by
  induction h with
  | int v =>
    have := Writes.int (F := F) (R := S) v
    rwa [map_C, map_intCast]
  | var v => rw [map_X]; exact .var v
  | neg _ ih => rw [_root_.map_neg]; exact .neg ih
  | add _ _ i j => rw [_root_.map_add]; exact .add i j
  | sub _ _ i j => rw [_root_.map_sub]; exact .sub i j
  | mul _ _ i j => rw [_root_.map_mul]; exact .mul i j
end iffs

variable [FloatOps F]

theorem valid_int {n : SmartNum F} (h : n.Valid) {k : Int64} (hk : n.toI64 = some k) : n = SmartNum.ofI64 k := by
  have hv := (C15_toI64_iff n k).1 hk
  have h0 := int_isZero h hv
  have h1 := int_isOne h hv
  have h2 := h.pi_val
  have h3 := h.e_val
  obtain ⟨v, t⟩ := n
  subst hv
  cases t <;> simp_all [SmartNum.isZero, SmartNum.isOne, SmartNum.isPi, SmartNum.isE, SmartNum.ofI64, SmartNum.ofVal,
    SmartNumVal.isZero, SmartNumVal.isOne, SmartNumVal.ofI64]

theorem valid_ofI64 (v : Int64) : (SmartNum.ofI64 v : SmartNum F).Valid := (numClosed_valid .debug).ofI64 v
omit [FloatOps F] in
theorem toI64_ofI64 (v : Int64) : (SmartNum.ofI64 v : SmartNum F).toI64 = some v := (C15_toI64_iff _ _).2 rfl

theorem Writes.valid {R : Type} [CommRing R] {e : Expr F} {P : MvPolynomial Variable R} (h : Writes R e P) :
    WF SmartNum.Valid e := by
  induction h with
  | int v => exact .num _ (valid_ofI64 v)
  | var v => exact .var v
  | neg _ i => exact .neg _ i
  | add _ _ i j => exact .add _ _ i j
  | sub _ _ i j => exact .sub _ _ i j
  | mul _ _ i j => exact .mul _ _ i j
theorem Writes.built {R : Type} [CommRing R] {e : Expr F} {P : MvPolynomial Variable R} (h : Writes R e P) (m : Mode) :
    Built m e := by
  induction h with
  | int v => exact .num _ (.ofI64 v)
  | var v => exact .var v
  | neg _ i => exact .neg _ i
  | add _ _ i j => exact .add _ _ i j
  | sub _ _ i j => exact .sub _ _ i j
  | mul _ _ i j => exact .mul _ _ i j

/-- A ring in which the results of a build are exact: any ring if overflow is checked, one in which 2^64 is 0 in release
builds. -/
theorem intSpec_ring {R : Type} [CommRing R] {m : Mode} (hR : m = .release → (2 : R) ^ 64 = 0)
    {op : Mode → Res (SmartNum F)} {E : ℤ} (hE : IntSpec op E) {z : SmartNum F} (hz : op m = .ok z) (hv : z.Valid)
    (hrel : op .release = .ok z) : Writes R (ofNum z) (C (E : R)) := by
  obtain ⟨h1, z', k, h2, h3, h4⟩ := hE
  rw [hrel] at h2
  cases h2
  rw [valid_int hv h3]
  have key : (k.toInt : R) = (E : R) := by
    by_cases hm : m = .release
    · obtain ⟨t, ht⟩ := h4.2
      have ht' : E = k.toInt + 2 ^ 64 * t := by linarith
      have h0 := hR hm
      rw [ht', Int.cast_add, Int.cast_mul, Int.cast_pow, Int.cast_ofNat, h0]; ring
    · rw [(h4.unique (wraps_self ((h1 m hm).1 ⟨z, hz⟩)))]
  rw [← key]
  exact .int k

theorem to_release {m : Mode} {x y z : SmartNum F} :
    (x.add m y = .ok z → x.add .release y = .ok z) ∧ (x.sub m y = .ok z → x.sub .release y = .ok z) ∧
    (x.mul m y = .ok z → x.mul .release y = .ok z) ∧ (x.neg m = .ok z → x.neg .release = .ok z) := by
  have h := C07_numbers x y z 0 0 0 0
  have h' := C07_wrap_free_numbers .release x y z 0 0 0 0
  cases m
  all_goals first
    | exact ⟨id, id, id, id⟩
    | exact ⟨h.1, h.2.1, h.2.2.1, h.2.2.2.2.1⟩
    | exact ⟨h'.1, h'.2.1, h'.2.2.1, h'.2.2.2.2.1⟩

theorem zero_int {R : Type} [CommRing R] {v : Int64} (h : (SmartNum.ofI64 v : SmartNum F).isZero = true) :
    (C (v.toInt : R) : MvPolynomial Variable R) = 0 := by
  rw [(int_isZero (valid_ofI64 v) rfl).1 h]; simp
theorem one_int {R : Type} [CommRing R] {v : Int64} (h : (SmartNum.ofI64 v : SmartNum F).isOne = true) :
    (C (v.toInt : R) : MvPolynomial Variable R) = 1 := by
  rw [(int_isOne (valid_ofI64 v) rfl).1 h]; simp [show (1 : Int64).toInt = 1 by decide]

theorem Agg.writes {R : Type} [CommRing R] {m : Mode} (hR : m = .release → (2 : R) ^ 64 = 0) {e e' : Expr F}
    (h : Agg m e e') {P : MvPolynomial Variable R} (hp : Writes R e P) : Writes R e' P := by
  have hval := numClosed_valid (F := F) m
  have hint : ∀ v w : Int64, _ := fun v w => C77_integers (SmartNum.ofI64 v : SmartNum F) (SmartNum.ofI64 w)
    (valid_ofI64 v) (valid_ofI64 w) v w (toI64_ofI64 v) (toI64_ofI64 w)
  induction h generalizing P with
  | num n => exact hp
  | var v => exact hp
  | neg_num _ hz ih =>
    obtain ⟨p, h1, rfl⟩ := writes_neg hp
    obtain ⟨v, rfl, rfl⟩ := writes_num (ih h1)
    have := intSpec_ring hR (hint v v).2.2.2 hz (hval.neg _ _ (valid_ofI64 v) hz) (to_release (y := SmartNum.ofI64 0).2.2.2 hz)
    simpa using this
  | neg_neg _ ih =>
    obtain ⟨p, h1, rfl⟩ := writes_neg hp
    obtain ⟨q, h2, rfl⟩ := writes_neg (ih h1)
    simpa using h2
  | neg _ _ _ ih =>
    obtain ⟨p, h1, rfl⟩ := writes_neg hp
    exact .neg (ih h1)
  | add_num _ _ hz i j =>
    obtain ⟨p, q, h1, h2, rfl⟩ := writes_add hp
    obtain ⟨v, rfl, rfl⟩ := writes_num (i h1)
    obtain ⟨w, rfl, rfl⟩ := writes_num (j h2)
    have := intSpec_ring hR (hint v w).1 hz (hval.add _ _ _ (valid_ofI64 v) (valid_ofI64 w) hz) (to_release.1 hz)
    simpa using this
  | add_zero_l _ _ hz _ i j =>
    obtain ⟨p, q, h1, h2, rfl⟩ := writes_add hp
    obtain ⟨v, rfl, rfl⟩ := writes_num (i h1)
    rw [zero_int hz, zero_add]; exact j h2
  | add_zero_r _ _ hz _ i j =>
    obtain ⟨p, q, h1, h2, rfl⟩ := writes_add hp
    obtain ⟨v, rfl, rfl⟩ := writes_num (j h2)
    rw [zero_int hz, add_zero]; exact i h1
  | add _ _ _ _ _ i j =>
    obtain ⟨p, q, h1, h2, rfl⟩ := writes_add hp
    exact .add (i h1) (j h2)
  | sub_num _ _ hz i j =>
    obtain ⟨p, q, h1, h2, rfl⟩ := writes_sub hp
    obtain ⟨v, rfl, rfl⟩ := writes_num (i h1)
    obtain ⟨w, rfl, rfl⟩ := writes_num (j h2)
    have := intSpec_ring hR (hint v w).2.1 hz (hval.sub _ _ _ (valid_ofI64 v) (valid_ofI64 w) hz) (to_release.2.1 hz)
    simpa using this
  | sub_zero_l _ _ hz _ i j =>
    obtain ⟨p, q, h1, h2, rfl⟩ := writes_sub hp
    obtain ⟨v, rfl, rfl⟩ := writes_num (i h1)
    rw [zero_int hz, zero_sub]; exact .neg (j h2)
  | sub_zero_r _ _ hz _ i j =>
    obtain ⟨p, q, h1, h2, rfl⟩ := writes_sub hp
    obtain ⟨v, rfl, rfl⟩ := writes_num (j h2)
    rw [zero_int hz, sub_zero]; exact i h1
  | sub _ _ _ _ _ i j =>
    obtain ⟨p, q, h1, h2, rfl⟩ := writes_sub hp
    exact .sub (i h1) (j h2)
  | mul_num _ _ hz i j =>
    obtain ⟨p, q, h1, h2, rfl⟩ := writes_mul hp
    obtain ⟨v, rfl, rfl⟩ := writes_num (i h1)
    obtain ⟨w, rfl, rfl⟩ := writes_num (j h2)
    have := intSpec_ring hR (hint v w).2.2.1 hz (hval.mul _ _ _ (valid_ofI64 v) (valid_ofI64 w) hz) (to_release.2.2.1 hz)
    simpa using this
  | mul_zero_l _ _ hz _ i j =>
    obtain ⟨p, q, h1, h2, rfl⟩ := writes_mul hp
    obtain ⟨v, rfl, rfl⟩ := writes_num (i h1)
    rw [zero_int hz, zero_mul]; simpa using Writes.int (F := F) (R := R) 0
  | mul_zero_r _ _ hz _ i j =>
    obtain ⟨p, q, h1, h2, rfl⟩ := writes_mul hp
    obtain ⟨v, rfl, rfl⟩ := writes_num (j h2)
    rw [zero_int hz, mul_zero]; simpa using Writes.int (F := F) (R := R) 0
  | mul_one_l _ _ hz _ i j =>
    obtain ⟨p, q, h1, h2, rfl⟩ := writes_mul hp
    obtain ⟨v, rfl, rfl⟩ := writes_num (i h1)
    rw [one_int hz, one_mul]; exact j h2
  | mul_one_r _ _ hz _ i j =>
    obtain ⟨p, q, h1, h2, rfl⟩ := writes_mul hp
    obtain ⟨v, rfl, rfl⟩ := writes_num (j h2)
    rw [one_int hz, mul_one]; exact i h1
  | mul _ _ _ _ _ _ _ i j =>
    obtain ⟨p, q, h1, h2, rfl⟩ := writes_mul hp
    exact .mul (i h1) (j h2)
  | _ => first
    | exact (writes_div hp).elim
    | exact (writes_pow hp).elim
    | exact (writes_sin hp).elim
    | exact (writes_cos hp).elim
    | exact (writes_exp hp).elim
    | exact (writes_ln hp).elim

theorem Der.writes {R : Type} [CommRing R] {m : Mode} (hR : m = .release → (2 : R) ^ 64 = 0) {x : Variable} {e e' : Expr F}
    (h : Der m x e e') {P : MvPolynomial Variable R} (hp : Writes R e P) : Writes R e' (pderiv x P) := by
  induction h generalizing P with
  | num n =>
    obtain ⟨v, rfl, rfl⟩ := writes_num hp
    rw [pderiv_C]; simpa using Writes.int (F := F) (R := R) 0
  | var =>
    rw [writes_var hp, pderiv_X_self]
    simpa [show (1 : Int64).toInt = 1 by decide] using Writes.int (F := F) (R := R) 1
  | var_ne y hy =>
    rw [writes_var hp, pderiv_X_of_ne hy.symm]; simpa using Writes.int (F := F) (R := R) 0
  | neg _ hg ih =>
    obtain ⟨p, h1, rfl⟩ := writes_neg hp
    refine hg.writes hR ?_
    rw [_root_.map_neg]; exact .neg (ih h1)
  | add _ _ hg i j =>
    obtain ⟨p, q, h1, h2, rfl⟩ := writes_add hp
    refine hg.writes hR ?_
    rw [_root_.map_add]; exact .add (i h1) (j h2)
  | sub _ _ hg i j =>
    obtain ⟨p, q, h1, h2, rfl⟩ := writes_sub hp
    refine hg.writes hR ?_
    rw [_root_.map_sub]; exact .sub (i h1) (j h2)
  | mul _ _ hg i j =>
    obtain ⟨p, q, h1, h2, rfl⟩ := writes_mul hp
    refine hg.writes hR ?_
    rw [pderiv_mul]; exact .add (.mul (i h1) h2) (.mul h1 (j h2))
  | div => exact (writes_div hp).elim
  | sin => exact (writes_sin hp).elim
  | cos => exact (writes_cos hp).elim
  | exp => exact (writes_exp hp).elim
  | ln => exact (writes_ln hp).elim
  | pow => exact (writes_pow hp).elim

/-- Putting an expression for a variable puts the polynomial for the indeterminate. -/
theorem Writes.replace {R : Type} [CommRing R] {e a : Expr F} {P Q : MvPolynomial Variable R} (h : Writes R e P)
    (ha : Writes R a Q) (x : Variable) :
    Writes R (e.replace x a) (bind₁ (fun v => if v = x then Q else X v) P) := by
  induction h with
  | int v => rw [replace_ofI64, bind₁_C_right]; exact .int v
  | var v =>
    rw [replace_ofVar, bind₁_X_right]
    split_ifs
    · exact ha
    · exact .var v
  | neg _ i => rw [replace_neg, _root_.map_neg]; exact .neg i
  | add _ _ i j => rw [replace_add, _root_.map_add]; exact .add i j
  | sub _ _ i j => rw [replace_sub, _root_.map_sub]; exact .sub i j
  | mul _ _ i j => rw [replace_mul, _root_.map_mul]; exact .mul i j

/-- C80: overflow checked.  If `e` writes the polynomial `P` with integer coefficients, then what `num_aggregate` returns
writes `P`, what `derivative` by `x` returns writes the partial derivative of `P`, and what `substitute` of an expression
that writes `Q` returns writes `P` with `Q` put in for `x`. -/
theorem C80_checked (m : Mode) (hm : m ≠ .release) (e : Expr F) (P : MvPolynomial Variable ℤ) (h : Writes ℤ e P)
    (x : Variable) :
    (∀ e', e.numAggregate m = .ok e' → Writes ℤ e' P) ∧ (∀ d, e.derivative m x = .ok d → Writes ℤ d (pderiv x P)) ∧
    ∀ (a : Expr F) (Q : MvPolynomial Variable ℤ), Writes ℤ a Q → ∃ e', e.substitute x a = .ok e' ∧
      Writes ℤ e' (bind₁ (fun v => if v = x then Q else X v) P) :=
  ⟨fun _ h' => (agg_of_numAggregate (h.built m).tree h').writes (fun h => (hm h).elim) h,
    fun _ h' => (der_of_derivative (h.built m).tree h').writes (fun h => (hm h).elim) h,
    fun a _ ha => ⟨_, substitute_eq e x a, h.replace ha x⟩⟩

/-- C80: release.  All three operations return, and the same holds for the polynomials with coefficients modulo 2^64. -/
theorem C80_release (e : Expr F) (P : MvPolynomial Variable (ZMod (2 ^ 64))) (h : Writes (ZMod (2 ^ 64)) e P)
    (x : Variable) :
    (∃ e', e.numAggregate .release = .ok e' ∧ Writes (ZMod (2 ^ 64)) e' P) ∧
    (∃ d, e.derivative .release x = .ok d ∧ Writes (ZMod (2 ^ 64)) d (pderiv x P)) ∧
    ∀ (a : Expr F) (Q : MvPolynomial Variable (ZMod (2 ^ 64))), Writes (ZMod (2 ^ 64)) a Q →
      ∃ e', e.substitute x a = .ok e' ∧ Writes (ZMod (2 ^ 64)) e' (bind₁ (fun v => if v = x then Q else X v) P) := by
  have hR : Mode.release = .release → (2 : ZMod (2 ^ 64)) ^ 64 = 0 := fun _ => by
    have := ZMod.natCast_self (2 ^ 64)
    push_cast at this; exact this
  have ht := (h.built .release).tree
  obtain ⟨⟨r, h1⟩, -, ⟨d, h2⟩, -⟩ := C08_release_total e e e x 0 (h.built _) (h.built _)
  exact ⟨⟨r, h1, (agg_of_numAggregate ht h1).writes hR h⟩, ⟨d, h2, (der_of_derivative ht h2).writes hR h⟩,
    fun a _ ha => ⟨_, substitute_eq e x a, h.replace ha x⟩⟩

/-- An expression that writes a polynomial over ℤ writes its reduction modulo 2^64. -/
theorem C80_reduce (e : Expr F) (P : MvPolynomial Variable ℤ) (h : Writes ℤ e P) :
    Writes (ZMod (2 ^ 64)) e (MvPolynomial.map (Int.castRingHom _) P) := h.map _

theorem addEvalRule_num (m : Mode) (x y : SmartNum F) :
    addEvalRule m [.ok (ofNum x), .ok (ofNum y)] = x.add m y >>= fun z => .ok (ofNum z) := rfl
theorem subEvalRule_num (m : Mode) (x y : SmartNum F) :
    subEvalRule m [.ok (ofNum x), .ok (ofNum y)] = x.sub m y >>= fun z => .ok (ofNum z) := rfl
theorem mulEvalRule_num (m : Mode) (x y : SmartNum F) :
    mulEvalRule m [.ok (ofNum x), .ok (ofNum y)] = x.mul m y >>= fun z => .ok (ofNum z) := rfl
theorem negEvalRule_num (m : Mode) (x : SmartNum F) :
    negEvalRule m [.ok (ofNum x)] = x.neg m >>= fun z => .ok (ofNum z) := rfl

/-- Without variables only a number can be left. -/
theorem Writes.number {R : Type} [CommRing R] {m : Mode} {e e' : Expr F} {P : MvPolynomial Variable R}
    (h : Writes R e P) (hv : ∀ v, ¬ Occurs v e) (h' : e.numAggregate m = .ok e') : ∃ n : SmartNum F, e' = ofNum n := by
  induction h generalizing e' with
  | int v => rw [ofI64, numAggregate_ofNum] at h'; exact ⟨_, (Res.ok.inj h').symm⟩
  | var v => exact (hv v (by simp)).elim
  | @neg a _ _ i =>
    cases ha : a.numAggregate m with
    | panic => rw [numAggregate_neg, ha] at h'; cases h'
    | ok a' =>
      obtain ⟨n, rfl⟩ := i (fun v => by simpa using hv v) ha
      rw [numAggregate_neg, ha, negEvalRule_num, Res.bind_eq_ok] at h'
      obtain ⟨z, -, h'⟩ := h'; exact ⟨z, (Res.ok.inj h').symm⟩
  | @add a b _ _ _ _ i j =>
    have hv' := fun v => not_or.1 (mt (occurs_add v a b).2 (hv v))
    cases hb : b.numAggregate m with
    | panic => rw [numAggregate_add, hb] at h'; cases h'
    | ok b' =>
      cases ha : a.numAggregate m with
      | panic => rw [numAggregate_add, ha, hb] at h'; cases h'
      | ok a' =>
        obtain ⟨n, rfl⟩ := i (fun v => (hv' v).1) ha
        obtain ⟨k, rfl⟩ := j (fun v => (hv' v).2) hb
        rw [numAggregate_add, ha, hb, addEvalRule_num, Res.bind_eq_ok] at h'
        obtain ⟨z, -, h'⟩ := h'; exact ⟨z, (Res.ok.inj h').symm⟩
  | @sub a b _ _ _ _ i j =>
    have hv' := fun v => not_or.1 (mt (occurs_sub v a b).2 (hv v))
    cases hb : b.numAggregate m with
    | panic => rw [numAggregate_sub, hb] at h'; cases h'
    | ok b' =>
      cases ha : a.numAggregate m with
      | panic => rw [numAggregate_sub, ha, hb] at h'; cases h'
      | ok a' =>
        obtain ⟨n, rfl⟩ := i (fun v => (hv' v).1) ha
        obtain ⟨k, rfl⟩ := j (fun v => (hv' v).2) hb
        rw [numAggregate_sub, ha, hb, subEvalRule_num, Res.bind_eq_ok] at h'
        obtain ⟨z, -, h'⟩ := h'; exact ⟨z, (Res.ok.inj h').symm⟩
  | @mul a b _ _ _ _ i j =>
    have hv' := fun v => not_or.1 (mt (occurs_mul v a b).2 (hv v))
    cases hb : b.numAggregate m with
    | panic => rw [numAggregate_mul, hb] at h'; cases h'
    | ok b' =>
      cases ha : a.numAggregate m with
      | panic => rw [numAggregate_mul, ha, hb] at h'; cases h'
      | ok a' =>
        obtain ⟨n, rfl⟩ := i (fun v => (hv' v).1) ha
        obtain ⟨k, rfl⟩ := j (fun v => (hv' v).2) hb
        rw [numAggregate_mul, ha, hb, mulEvalRule_num, Res.bind_eq_ok] at h'
        obtain ⟨z, -, h'⟩ := h'; exact ⟨z, (Res.ok.inj h').symm⟩

/-- C80: an expression without variables is evaluated: where overflow is checked, a result is the integer written; in a
release build the result is the integer congruent to it modulo 2^64. -/
theorem C80_number (e : Expr F) (P : MvPolynomial Variable ℤ) (h : Writes ℤ e P) (hv : ∀ v, ¬ Occurs v e) :
    (∀ m ≠ .release, ∀ e', e.numAggregate m = .ok e' → ∃ k, e' = ofI64 k ∧ k.toInt = constantCoeff P) ∧
    ∃ k, e.numAggregate .release = .ok (ofI64 k) ∧ WrapsTo (constantCoeff P) k.toInt := by
  constructor
  · intro m hm e' h'
    obtain ⟨n, rfl⟩ := h.number hv h'
    obtain ⟨k, rfl, rfl⟩ := writes_num ((C80_checked m hm e P h ⟨"x"⟩).1 _ h')
    exact ⟨k, rfl, by simp⟩
  · obtain ⟨e', h1, h2⟩ := (C80_release e _ (h.map (Int.castRingHom (ZMod (2 ^ 64)))) ⟨"x"⟩).1
    obtain ⟨n, rfl⟩ := h.number hv h1
    obtain ⟨k, rfl, h3⟩ := writes_num h2
    refine ⟨k, h1, Int64.inI64_toInt k, ?_⟩
    have h4 := congrArg constantCoeff h3
    rw [constantCoeff_C, constantCoeff_map] at h4
    have h5 := (ZMod.intCast_eq_intCast_iff_dvd_sub k.toInt (constantCoeff P) (2 ^ 64)).1 (by simpa using h4.symm)
    simpa using h5

theorem zmod_int64 {k l : Int64} (h : (k.toInt : ZMod (2 ^ 64)) = l.toInt) : k = l := by
  have h5 := (ZMod.intCast_eq_intCast_iff_dvd_sub k.toInt l.toInt (2 ^ 64)).1 h
  have h6 : WrapsTo l.toInt k.toInt := ⟨Int64.inI64_toInt k, by simpa using h5⟩
  exact Int64.toInt_inj.1 (h6.unique (wraps_self (Int64.inI64_toInt l)))

theorem same_number {a b : Expr F} {P : MvPolynomial Variable (ZMod (2 ^ 64))} (ha : Writes (ZMod (2 ^ 64)) a P)
    (hb : Writes (ZMod (2 ^ 64)) b P) (va : ∀ v, ¬ Occurs v a) (vb : ∀ v, ¬ Occurs v b) :
    a.numAggregate .release = b.numAggregate .release := by
  obtain ⟨a', h1, h2⟩ := (C80_release a P ha ⟨"x"⟩).1
  obtain ⟨b', h3, h4⟩ := (C80_release b P hb ⟨"x"⟩).1
  obtain ⟨n, rfl⟩ := ha.number va h1
  obtain ⟨l, rfl⟩ := hb.number vb h3
  obtain ⟨v, rfl, h5⟩ := writes_num h2
  obtain ⟨w, rfl, h6⟩ := writes_num h4
  have h7 : (v.toInt : ZMod (2 ^ 64)) = w.toInt := C_injective Variable (ZMod (2 ^ 64)) (h5.symm.trans h6)
  rw [h1, h3, zmod_int64 h7]

/-- C80: so the grouping and the order of the operations do not matter.  Let `a` and `b` write the same polynomial, put
the same expressions for variables into both, one after the other, until no variable is left, and simplify: in a release
build the two numbers are identical, even if they agree only modulo 2^64 and even if operations wrap. -/
theorem C80_same (a b : Expr F) (P : MvPolynomial Variable (ZMod (2 ^ 64))) (ha : Writes (ZMod (2 ^ 64)) a P)
    (hb : Writes (ZMod (2 ^ 64)) b P) (l : List (Variable × Expr F))
    (hl : ∀ p ∈ l, ∃ Q, Writes (ZMod (2 ^ 64)) p.2 Q) (a' b' : Expr F)
    (h1 : l.foldlM (fun e p => e.substitute p.1 p.2) a = .ok a')
    (h2 : l.foldlM (fun e p => e.substitute p.1 p.2) b = .ok b')
    (va : ∀ v, ¬ Occurs v a') (vb : ∀ v, ¬ Occurs v b') :
    a'.numAggregate .release = b'.numAggregate .release := by
  induction l generalizing a b P with
  | nil => cases h1; cases h2; exact same_number ha hb va vb
  | cons p l ih =>
    obtain ⟨Q, hQ⟩ := hl p (by simp)
    rw [List.foldlM_cons, substitute_eq] at h1 h2
    exact ih _ _ _ (ha.replace hQ p.1) (hb.replace hQ p.1) (fun p hp => hl p (by simp [hp])) h1 h2

/-- C80: the same where overflow is checked, if both simplifications return; one of them may panic and the other not. -/
theorem C80_same_checked (m : Mode) (hm : m ≠ .release) (a b : Expr F) (P : MvPolynomial Variable ℤ) (ha : Writes ℤ a P)
    (hb : Writes ℤ b P) (va : ∀ v, ¬ Occurs v a) (vb : ∀ v, ¬ Occurs v b) (a' b' : Expr F)
    (h1 : a.numAggregate m = .ok a') (h2 : b.numAggregate m = .ok b') : a' = b' := by
  obtain ⟨k, rfl, h3⟩ := (C80_number a P ha va).1 m hm a' h1
  obtain ⟨l, rfl, h4⟩ := (C80_number b P hb vb).1 m hm b' h2
  rw [Int64.toInt_inj.1 (h3.trans h4.symm)]

/-- C80: where overflow is checked, simplifying an expression without variables returns exactly if the integers that it
and all its subexpressions write fit in an i64. -/
theorem C80_returns (m : Mode) (hm : m ≠ .release) (e : Expr F) (P : MvPolynomial Variable ℤ) (h : Writes ℤ e P)
    (hv : ∀ v, ¬ Occurs v e) :
    (∃ e', e.numAggregate m = .ok e') ↔ ∀ s, Subterm s e → ∀ Q, Writes ℤ s Q → InI64 (constantCoeff Q) := by
  have hint : ∀ v w : Int64, _ := fun v w => C77_integers (SmartNum.ofI64 v : SmartNum F) (SmartNum.ofI64 w)
    (valid_ofI64 v) (valid_ofI64 w) v w (toI64_ofI64 v) (toI64_ofI64 w)
  change _ ↔ Everywhere (fun s => ∀ Q, Writes ℤ s Q → InI64 (constantCoeff Q)) e
  have self : ∀ {e : Expr F} {P : MvPolynomial Variable ℤ}, Writes ℤ e P →
      ((∀ Q, Writes ℤ e Q → InI64 (constantCoeff Q)) ↔ InI64 (constantCoeff P)) := fun h =>
    ⟨fun h' => h' _ h, fun h' Q hQ => by rwa [← h.unique hQ]⟩
  have fits : ∀ {e e' : Expr F} {P : MvPolynomial Variable ℤ}, Writes ℤ e P → (∀ v, ¬ Occurs v e) →
      e.numAggregate m = .ok e' → ∃ k : Int64, e' = ofI64 k ∧ k.toInt = constantCoeff P :=
    fun h hv h' => (C80_number _ _ h hv).1 m hm _ h'
  induction h with
  | int v =>
    rw [ofI64, everywhere_ofNum, numAggregate_ofNum]
    erw [self (.int v)]
    exact ⟨fun _ => by simpa using Int64.inI64_toInt v, fun _ => ⟨_, rfl⟩⟩
  | var v => exact (hv v (by simp)).elim
  | @neg a p ha i =>
    have hv' : ∀ v, ¬ Occurs v a := fun v => by simpa using hv v
    have i : (∃ e', a.numAggregate m = .ok e') ↔ Everywhere _ a := i hv'
    rw [everywhere_neg, self (.neg ha), ← i, numAggregate_neg]
    cases h1 : a.numAggregate m with
    | panic => exact ⟨fun ⟨_, h⟩ => (by cases h), fun ⟨_, _, h⟩ => (by cases h)⟩
    | ok a' =>
      obtain ⟨k, rfl, hk⟩ := fits ha hv' h1
      have := (hint k k).2.2.2.1 m hm
      rw [hk, ← _root_.map_neg] at this
      rw [← this]
      simp only [ofI64, negEvalRule_num, Res.bind_eq_ok, Res.ok.injEq, exists_eq', and_true]
      exact ⟨fun ⟨_, z, h, _⟩ => ⟨z, h⟩, fun ⟨z, h⟩ => ⟨_, z, h, rfl⟩⟩
  | @add a b p q ha hb i j =>
    have hv' := fun v => not_or.1 (mt (occurs_add v a b).2 (hv v))
    have i : (∃ e', a.numAggregate m = .ok e') ↔ Everywhere _ a := i fun v => (hv' v).1
    have j : (∃ e', b.numAggregate m = .ok e') ↔ Everywhere _ b := j fun v => (hv' v).2
    rw [everywhere_add, self (.add ha hb), ← i, ← j, numAggregate_add]
    cases h2 : b.numAggregate m with
    | panic => exact ⟨fun ⟨_, h⟩ => (by cases h), fun ⟨_, _, _, h⟩ => (by cases h)⟩
    | ok b' =>
    cases h1 : a.numAggregate m with
    | panic => exact ⟨fun ⟨_, h⟩ => (by cases h), fun ⟨_, ⟨_, h⟩, _⟩ => (by cases h)⟩
    | ok a' =>
      obtain ⟨k, rfl, hk⟩ := fits ha (fun v => (hv' v).1) h1
      obtain ⟨l, rfl, hl⟩ := fits hb (fun v => (hv' v).2) h2
      have := (hint k l).1.1 m hm
      rw [hk, hl, ← _root_.map_add] at this
      rw [← this]
      simp only [ofI64, addEvalRule_num, Res.bind_eq_ok, Res.ok.injEq, exists_eq', and_true]
      exact ⟨fun ⟨_, z, h, _⟩ => ⟨z, h⟩, fun ⟨z, h⟩ => ⟨_, z, h, rfl⟩⟩
  | @sub a b p q ha hb i j =>
    have hv' := fun v => not_or.1 (mt (occurs_sub v a b).2 (hv v))
    have i : (∃ e', a.numAggregate m = .ok e') ↔ Everywhere _ a := i fun v => (hv' v).1
    have j : (∃ e', b.numAggregate m = .ok e') ↔ Everywhere _ b := j fun v => (hv' v).2
    rw [everywhere_sub, self (.sub ha hb), ← i, ← j, numAggregate_sub]
    cases h2 : b.numAggregate m with
    | panic => exact ⟨fun ⟨_, h⟩ => (by cases h), fun ⟨_, _, _, h⟩ => (by cases h)⟩
    | ok b' =>
    cases h1 : a.numAggregate m with
    | panic => exact ⟨fun ⟨_, h⟩ => (by cases h), fun ⟨_, ⟨_, h⟩, _⟩ => (by cases h)⟩
    | ok a' =>
      obtain ⟨k, rfl, hk⟩ := fits ha (fun v => (hv' v).1) h1
      obtain ⟨l, rfl, hl⟩ := fits hb (fun v => (hv' v).2) h2
      have := (hint k l).2.1.1 m hm
      rw [hk, hl, ← _root_.map_sub] at this
      rw [← this]
      simp only [ofI64, subEvalRule_num, Res.bind_eq_ok, Res.ok.injEq, exists_eq', and_true]
      exact ⟨fun ⟨_, z, h, _⟩ => ⟨z, h⟩, fun ⟨z, h⟩ => ⟨_, z, h, rfl⟩⟩
  | @mul a b p q ha hb i j =>
    have hv' := fun v => not_or.1 (mt (occurs_mul v a b).2 (hv v))
    have i : (∃ e', a.numAggregate m = .ok e') ↔ Everywhere _ a := i fun v => (hv' v).1
    have j : (∃ e', b.numAggregate m = .ok e') ↔ Everywhere _ b := j fun v => (hv' v).2
    rw [everywhere_mul, self (.mul ha hb), ← i, ← j, numAggregate_mul]
    cases h2 : b.numAggregate m with
    | panic => exact ⟨fun ⟨_, h⟩ => (by cases h), fun ⟨_, _, _, h⟩ => (by cases h)⟩
    | ok b' =>
    cases h1 : a.numAggregate m with
    | panic => exact ⟨fun ⟨_, h⟩ => (by cases h), fun ⟨_, ⟨_, h⟩, _⟩ => (by cases h)⟩
    | ok a' =>
      obtain ⟨k, rfl, hk⟩ := fits ha (fun v => (hv' v).1) h1
      obtain ⟨l, rfl, hl⟩ := fits hb (fun v => (hv' v).2) h2
      have := (hint k l).2.2.1.1 m hm
      rw [hk, hl, ← _root_.map_mul] at this
      rw [← this]
      simp only [ofI64, mulEvalRule_num, Res.bind_eq_ok, Res.ok.injEq, exists_eq', and_true]
      exact ⟨fun ⟨_, z, h, _⟩ => ⟨z, h⟩, fun ⟨z, h⟩ => ⟨_, z, h, rfl⟩⟩

/-- C80, an instance: (x + 1) * (x - 1) and x * x - 1 with 2^40 for x.  Both simplify to -1 in a release build (2^80 is 0
modulo 2^64) and both panic in a debug build. -/
example : (∀ e ∈ ([((newVariable "x").add (ofI64 1)).mul ((newVariable "x").sub (ofI64 1)),
      ((newVariable "x").mul (newVariable "x")).sub (ofI64 1)] : List (Expr F)),
    Writes ℤ e (X ⟨"x"⟩ ^ 2 - 1) ∧ ∃ e', e.substitute ⟨"x"⟩ (ofI64 1099511627776) = .ok e' ∧
      e'.numAggregate .release = .ok (ofI64 (-1)) ∧ e'.numAggregate .debug = .panic) := by
  have hx : Writes ℤ (newVariable "x" : Expr F) (X ⟨"x"⟩) := .var ⟨"x"⟩
  have h1 : Writes ℤ (ofI64 1 : Expr F) 1 := by
    simpa [show (1 : Int64).toInt = 1 by decide] using Writes.int (F := F) (R := ℤ) 1
  intro e he
  simp only [List.mem_cons, List.not_mem_nil, or_false] at he
  rcases he with rfl | rfl
  · refine ⟨?_, _, substitute_eq _ _ _, by krfl, by krfl⟩
    rw [show (X ⟨"x"⟩ ^ 2 - 1 : MvPolynomial Variable ℤ) = (X ⟨"x"⟩ + 1) * (X ⟨"x"⟩ - 1) by ring]
    exact .mul (.add hx h1) (.sub hx h1)
  · refine ⟨?_, _, substitute_eq _ _ _, by krfl, by krfl⟩
    rw [pow_two]
    exact .sub (.mul hx hx) h1

/-- C80: where overflow is checked the grouping decides whether there is an answer: 2^62 + (2^62 - 2^62) is 2^62,
(2^62 + 2^62) - 2^62 panics. -/
theorem C80_grouping_matters :
    ((ofI64 4611686018427387904 : Expr F).add ((ofI64 4611686018427387904).sub (ofI64 4611686018427387904))).numAggregate
      .debug = .ok (ofI64 4611686018427387904) ∧
    (((ofI64 4611686018427387904 : Expr F).add (ofI64 4611686018427387904)).sub (ofI64 4611686018427387904)).numAggregate
      .debug = .panic := by
  constructor <;> krfl

end SymRust
