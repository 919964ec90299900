import Verif.Spec.Height
import Verif.Proofs.NumberOps
/-! Arithmetic on fractions with small nominators and denominators never overflows. -/

namespace SymRust
variable {F : Type}

theorem SignOK.toInt {r : RationalNum} (h : r.SignOK) : r.sign.toInt = 1 ∨ r.sign.toInt = -1 ∨ r.sign.toInt = 0 := by
  rcases h with (h | h) | ⟨h, -⟩ <;> rw [h] <;> simp

namespace RationalNum

theorem reduce_nominator_le (x : RationalNum) : x.reduce.nominator.toNat ≤ x.nominator.toNat := by
  rw [reduce_nominator]; exact Nat.div_le_self _ _
theorem reduce_denominator_le (x : RationalNum) : x.reduce.denominator.toNat ≤ x.denominator.toNat := by
  rw [reduce_denominator]; exact Nat.div_le_self _ _

/-- `|i * s| ≤ i` for a sign `s`. -/
theorem signed_fits {p : Int64} {s : Int64} {k : ℕ} (hp : p.toInt = k) (hk : k < 9223372036854775808)
    (hs : s.toInt = 1 ∨ s.toInt = -1 ∨ s.toInt = 0) :
    ∃ q, i64Mul .strict p s = .ok q ∧ -(k : ℤ) ≤ q.toInt ∧ q.toInt ≤ k := by
  have m1 := i64Mul_fits .strict (a := p) (b := s) (by
    rw [hp]; unfold InI64; rcases hs with h | h | h <;> rw [h] <;> omega)
  refine ⟨_, m1, ?_⟩
  rw [i64Mul_exact (by simp) m1, hp]
  rcases hs with h | h | h <;> rw [h] <;> omega

theorem product_fits {a b : UInt64} (h : a.toNat * b.toNat < 9223372036854775808) :
    ∃ p q, u64Mul .strict a b = .ok p ∧ p.toNat = a.toNat * b.toNat ∧ castI64 .strict p = .ok q ∧
      q.toInt = ((a.toNat * b.toNat : ℕ) : ℤ) := by
  have e1 := u64Mul_fits .strict (a := a) (b := b) (by unfold InU64; omega)
  have n1 := u64Mul_exact (by simp) e1
  have c1 := castI64_fits .strict (a := a * b) (by omega)
  have i1 := castI64_exact c1 (.inl rfl)
  exact ⟨_, _, e1, n1, c1, by rw [i1, n1]⟩

theorem abs_fits {s : Int64} {k : ℕ} (h : -(k : ℤ) ≤ s.toInt ∧ s.toInt ≤ k) (hk : k < 9223372036854775808) :
    ∃ t, i64Abs .strict s = .ok t ∧ (castU64 t).toNat ≤ k := by
  obtain ⟨t, ht⟩ : ∃ t, i64Abs .strict s = .ok t := ⟨_, checked_of_fits _ _ (by unfold InI64; omega)⟩
  have hx := i64Abs_exact (by simp) ht
  have := castU64_toNat (a := t) (by omega)
  exact ⟨t, ht, by omega⟩

theorem add_fits {a b : RationalNum} (ha : a.SignOK) (hb : b.SignOK)
    (h1 : a.nominator.toNat * b.denominator.toNat + b.nominator.toNat * a.denominator.toNat < 9223372036854775808)
    (h2 : a.denominator.toNat * b.denominator.toNat < 9223372036854775808) :
    ∃ c, a.add .strict b = .ok c ∧
      c.nominator.toNat ≤ a.nominator.toNat * b.denominator.toNat + b.nominator.toNat * a.denominator.toNat ∧
      c.denominator.toNat ≤ a.denominator.toNat * b.denominator.toNat := by
  have hc := Nat.mul_comm a.denominator.toNat b.nominator.toNat
  obtain ⟨p1, q1, e1, n1, c1, i1⟩ := product_fits (a := a.nominator) (b := b.denominator) (by omega)
  obtain ⟨p2, q2, e2, n2, c2, i2⟩ := product_fits (a := a.denominator) (b := b.nominator) (by omega)
  obtain ⟨p3, q3, e3, n3, -, -⟩ := product_fits (a := a.denominator) (b := b.denominator) h2
  obtain ⟨s1, m1, r1⟩ := signed_fits i1 (by omega) (SignOK.toInt ha)
  obtain ⟨s2, m2, r2⟩ := signed_fits i2 (by omega) (SignOK.toInt hb)
  have f := i64Add_fits .strict (a := s1) (b := s2) (by unfold InI64; omega)
  have fx := i64Add_exact (by simp) f
  obtain ⟨t, ht, hn⟩ := abs_fits (s := s1 + s2)
    (k := a.nominator.toNat * b.denominator.toNat + b.nominator.toNat * a.denominator.toNat) (by omega) h1
  refine ⟨(RationalNum.mk (i64Signum (s1 + s2)) (castU64 t) p3).reduce, ?_, ?_, ?_⟩
  · unfold add
    simp only [e1, e2, e3, c1, c2, m1, m2, f, ht, Res.ok_bind, Res.pure_eq]
  · exact (reduce_nominator_le _).trans hn
  · exact (reduce_denominator_le _).trans n3.le

theorem sub_fits {a b : RationalNum} (ha : a.SignOK) (hb : b.SignOK)
    (h1 : a.nominator.toNat * b.denominator.toNat + b.nominator.toNat * a.denominator.toNat < 9223372036854775808)
    (h2 : a.denominator.toNat * b.denominator.toNat < 9223372036854775808) :
    ∃ c, a.sub .strict b = .ok c ∧
      c.nominator.toNat ≤ a.nominator.toNat * b.denominator.toNat + b.nominator.toNat * a.denominator.toNat ∧
      c.denominator.toNat ≤ a.denominator.toNat * b.denominator.toNat := by
  have hc := Nat.mul_comm a.denominator.toNat b.nominator.toNat
  obtain ⟨p1, q1, e1, n1, c1, i1⟩ := product_fits (a := a.nominator) (b := b.denominator) (by omega)
  obtain ⟨p2, q2, e2, n2, c2, i2⟩ := product_fits (a := a.denominator) (b := b.nominator) (by omega)
  obtain ⟨p3, q3, e3, n3, -, -⟩ := product_fits (a := a.denominator) (b := b.denominator) h2
  obtain ⟨s1, m1, r1⟩ := signed_fits i1 (by omega) (SignOK.toInt ha)
  obtain ⟨s2, m2, r2⟩ := signed_fits i2 (by omega) (SignOK.toInt hb)
  have f := i64Sub_fits .strict (a := s1) (b := s2) (by unfold InI64; omega)
  have fx := i64Sub_exact (by simp) f
  obtain ⟨t, ht, hn⟩ := abs_fits (s := s1 - s2)
    (k := a.nominator.toNat * b.denominator.toNat + b.nominator.toNat * a.denominator.toNat) (by omega) h1
  refine ⟨(RationalNum.mk (i64Signum (s1 - s2)) (castU64 t) p3).reduce, ?_, ?_, ?_⟩
  · unfold sub
    simp only [e1, e2, e3, c1, c2, m1, m2, f, ht, Res.ok_bind, Res.pure_eq]
  · exact (reduce_nominator_le _).trans hn
  · exact (reduce_denominator_le _).trans n3.le

theorem sign_mul_fits {a b : RationalNum} (ha : a.SignOK) (hb : b.SignOK) :
    ∃ s, i64Mul .strict a.sign b.sign = .ok s :=
  ⟨_, i64Mul_fits .strict (by
    unfold InI64
    rcases SignOK.toInt ha with h | h | h <;> rcases SignOK.toInt hb with g | g | g <;> rw [h, g] <;> decide)⟩

theorem mul_fits {a b : RationalNum} (ha : a.SignOK) (hb : b.SignOK)
    (h1 : a.nominator.toNat * b.nominator.toNat < 9223372036854775808)
    (h2 : a.denominator.toNat * b.denominator.toNat < 9223372036854775808) :
    ∃ c, a.mul .strict b = .ok c ∧ c.nominator.toNat ≤ a.nominator.toNat * b.nominator.toNat ∧
      c.denominator.toNat ≤ a.denominator.toNat * b.denominator.toNat := by
  obtain ⟨p1, q1, e1, n1, -⟩ := product_fits (a := a.nominator) (b := b.nominator) h1
  obtain ⟨p3, q3, e3, n3, -⟩ := product_fits (a := a.denominator) (b := b.denominator) h2
  obtain ⟨s, hs⟩ := sign_mul_fits ha hb
  refine ⟨(RationalNum.mk s p1 p3).reduce, ?_, ?_, ?_⟩
  · unfold mul
    simp only [e1, e3, hs, Res.ok_bind, Res.pure_eq]
  · exact (reduce_nominator_le _).trans n1.le
  · exact (reduce_denominator_le _).trans n3.le

theorem div_fits {a b : RationalNum} (ha : a.SignOK) (hb : b.SignOK)
    (h1 : a.nominator.toNat * b.denominator.toNat < 9223372036854775808)
    (h2 : a.denominator.toNat * b.nominator.toNat < 9223372036854775808) :
    ∃ c, a.div .strict b = .ok c ∧ c.nominator.toNat ≤ a.nominator.toNat * b.denominator.toNat ∧
      c.denominator.toNat ≤ a.denominator.toNat * b.nominator.toNat := by
  obtain ⟨p1, q1, e1, n1, -⟩ := product_fits (a := a.nominator) (b := b.denominator) h1
  obtain ⟨p3, q3, e3, n3, -⟩ := product_fits (a := a.denominator) (b := b.nominator) h2
  obtain ⟨s, hs⟩ := sign_mul_fits ha hb
  refine ⟨(RationalNum.mk s p1 p3).reduce, ?_, ?_, ?_⟩
  · unfold div
    simp only [e1, e3, hs, Res.ok_bind, Res.pure_eq]
  · exact (reduce_nominator_le _).trans n1.le
  · exact (reduce_denominator_le _).trans n3.le

theorem ofI64_fits {v : Int64} (h : v.toInt.natAbs < 9223372036854775808) :
    ∃ r, ofI64 .strict v = .ok r ∧ r.SignOK ∧ r.nominator.toNat = v.toInt.natAbs ∧ r.denominator.toNat = 1 := by
  obtain ⟨t, ht⟩ : ∃ t, i64Abs .strict v = .ok t := ⟨_, checked_of_fits _ _ (by unfold InI64; omega)⟩
  have hx := i64Abs_exact (by simp) ht
  have := castU64_toNat (a := t) (by omega)
  obtain ⟨r, hr⟩ : ∃ r, ofI64 .strict v = .ok r := ⟨_, by unfold ofI64; rw [ht]; rfl⟩
  refine ⟨r, hr, (ofI64_valid hr).storedOK.signOK, ?_, ?_⟩ <;>
  · unfold ofI64 at hr
    rw [ht] at hr
    cases hr
    simp only
    first | omega | rfl

end RationalNum

/-! ### stored values -/

namespace SmartNumVal
variable [FloatOps F] {a b : SmartNumVal F}

omit [FloatOps F] in
theorem one_le_height (a : SmartNumVal F) : 1 ≤ a.height.1 ∧ 1 ≤ a.height.2 := by
  cases a <;> simp [height]

/-- The value as a fraction, when it is not a float. -/
def Frac (a : SmartNumVal F) (r : RationalNum) : Prop :=
  r.SignOK ∧ r.nominator.toNat ≤ a.height.1 ∧ r.denominator.toNat ≤ a.height.2

theorem frac_rational {r : RationalNum} (h : (SmartNumVal.rational r : SmartNumVal F).OK) :
    Frac (.rational r : SmartNumVal F) r := ⟨(h r rfl).signOK, le_max_right _ _, le_max_right _ _⟩

theorem frac_integer {v : Int64} (h : (SmartNumVal.integer v : SmartNumVal F).height.1 < 9223372036854775808) :
    ∃ r, RationalNum.ofI64 .strict v = .ok r ∧ Frac (.integer v : SmartNumVal F) r := by
  have : v.toInt.natAbs < 9223372036854775808 := (le_max_right _ _).trans_lt h
  obtain ⟨r, h1, h2, h3, h4⟩ := RationalNum.ofI64_fits this
  exact ⟨r, h1, h2, h3 ▸ le_max_right _ _, h4.le⟩

/-- `c` is no larger than the bounds. -/
def Within (c : SmartNumVal F) (k : ℕ × ℕ) : Prop := c.height.1 ≤ k.1 ∧ c.height.2 ≤ k.2

omit [FloatOps F] in
theorem within_rational {r : RationalNum} {k : ℕ × ℕ} (hk : 1 ≤ k.1 ∧ 1 ≤ k.2) (h1 : r.nominator.toNat ≤ k.1)
    (h2 : r.denominator.toNat ≤ k.2) : Within (.rational r : SmartNumVal F) k := ⟨max_le hk.1 h1, max_le hk.2 h2⟩

omit [FloatOps F] in
theorem within_real {f : F} {k : ℕ × ℕ} (hk : 1 ≤ k.1 ∧ 1 ≤ k.2) : Within (.real f) k := hk

omit [FloatOps F] in
theorem within_integer {v : Int64} {k : ℕ × ℕ} (hk : 1 ≤ k.1 ∧ 1 ≤ k.2) (h : v.toInt.natAbs ≤ k.1) :
    Within (.integer v : SmartNumVal F) k := ⟨max_le hk.1 h, hk.2⟩

/-- Both components are below 2^63. -/
def Fits (k : ℕ × ℕ) : Prop := k.1 < 9223372036854775808 ∧ k.2 < 9223372036854775808

theorem opHeight_pos {op : OperatorType} {l : List (ℕ × ℕ)} (h : ∀ k ∈ l, 1 ≤ k.1 ∧ 1 ≤ k.2) :
    1 ≤ (opHeight op l).1 ∧ 1 ≤ (opHeight op l).2 := by
  have mp : ∀ {a b : ℕ}, 1 ≤ a → 1 ≤ b → 1 ≤ a * b := fun h g => Nat.mul_pos h g
  unfold opHeight
  split <;> try simp only [List.mem_cons, List.not_mem_nil, or_false, forall_eq_or_imp, forall_eq] at h
  all_goals first
    | exact h
    | exact ⟨le_rfl, le_rfl⟩
    | exact ⟨(mp h.1.1 h.2.2).trans (Nat.le_add_right _ _), mp h.1.2 h.2.2⟩
    | exact ⟨mp h.1.1 h.2.1, mp h.1.2 h.2.2⟩
    | exact ⟨mp h.1.1 h.2.2, mp h.1.2 h.2.1⟩
    | exact ⟨h.1.1.trans (le_max_left _ _), h.1.2.trans (le_max_left _ _)⟩

omit [FloatOps F] in
theorem pair_pos (a b : SmartNumVal F) : ∀ k ∈ [a.height, b.height], 1 ≤ k.1 ∧ 1 ≤ k.2 := by
  intro k hk
  rcases List.mem_pair.1 hk with rfl | rfl
  · exact one_le_height a
  · exact one_le_height b

omit [FloatOps F] in
theorem left_fits {h : OperatorType} (hh : h = .add ∨ h = .sub ∨ h = .mul ∨ h = .div) (hf : Fits (opHeight h [a.height, b.height])) :
    a.height.1 < 9223372036854775808 := by
  have h1 := one_le_height b
  have e1 := Nat.le_mul_of_pos_right a.height.1 (show 0 < b.height.1 from h1.1)
  have e2 := Nat.le_mul_of_pos_right a.height.1 (show 0 < b.height.2 from h1.2)
  rcases hh with rfl | rfl | rfl | rfl <;> have := hf.1 <;> simp only [opHeight] at this <;> omega

omit [FloatOps F] in
theorem right_fits {h : OperatorType} (hh : h = .add ∨ h = .sub ∨ h = .mul ∨ h = .div) (hf : Fits (opHeight h [a.height, b.height])) :
    b.height.1 < 9223372036854775808 := by
  have h1 := one_le_height a
  have e1 := Nat.le_mul_of_pos_left b.height.1 (show 0 < a.height.1 from h1.1)
  have e2 := Nat.le_mul_of_pos_left b.height.1 (show 0 < a.height.2 from h1.2)
  have e3 := Nat.mul_comm a.height.2 b.height.1
  have := hf.2
  rcases hh with rfl | rfl | rfl | rfl <;> have := hf.1 <;> simp only [opHeight] at * <;> omega

section frac
variable {r s : RationalNum}

theorem add_frac (ha : a.Frac r) (hb : b.Frac s) (hf : Fits (opHeight .add [a.height, b.height])) :
    ∃ c, r.add .strict s = .ok c ∧ Within (.rational c : SmartNumVal F) (opHeight .add [a.height, b.height]) := by
  have h1 := Nat.add_le_add (Nat.mul_le_mul ha.2.1 hb.2.2) (Nat.mul_le_mul hb.2.1 ha.2.2)
  have h2 := Nat.mul_le_mul ha.2.2 hb.2.2
  obtain ⟨c, hc, g1, g2⟩ := RationalNum.add_fits ha.1 hb.1 (h1.trans_lt hf.1) (h2.trans_lt hf.2)
  exact ⟨c, hc, within_rational (opHeight_pos (pair_pos a b)) (g1.trans h1) (g2.trans h2)⟩

theorem sub_frac (ha : a.Frac r) (hb : b.Frac s) (hf : Fits (opHeight .sub [a.height, b.height])) :
    ∃ c, r.sub .strict s = .ok c ∧ Within (.rational c : SmartNumVal F) (opHeight .sub [a.height, b.height]) := by
  have h1 := Nat.add_le_add (Nat.mul_le_mul ha.2.1 hb.2.2) (Nat.mul_le_mul hb.2.1 ha.2.2)
  have h2 := Nat.mul_le_mul ha.2.2 hb.2.2
  obtain ⟨c, hc, g1, g2⟩ := RationalNum.sub_fits ha.1 hb.1 (h1.trans_lt hf.1) (h2.trans_lt hf.2)
  exact ⟨c, hc, within_rational (opHeight_pos (pair_pos a b)) (g1.trans h1) (g2.trans h2)⟩

theorem mul_frac (ha : a.Frac r) (hb : b.Frac s) (hf : Fits (opHeight .mul [a.height, b.height])) :
    ∃ c, r.mul .strict s = .ok c ∧ Within (.rational c : SmartNumVal F) (opHeight .mul [a.height, b.height]) := by
  have h1 := Nat.mul_le_mul ha.2.1 hb.2.1
  have h2 := Nat.mul_le_mul ha.2.2 hb.2.2
  obtain ⟨c, hc, g1, g2⟩ := RationalNum.mul_fits ha.1 hb.1 (h1.trans_lt hf.1) (h2.trans_lt hf.2)
  exact ⟨c, hc, within_rational (opHeight_pos (pair_pos a b)) (g1.trans h1) (g2.trans h2)⟩

theorem div_frac (ha : a.Frac r) (hb : b.Frac s) (hf : Fits (opHeight .div [a.height, b.height])) :
    ∃ c, r.div .strict s = .ok c ∧ Within (.rational c : SmartNumVal F) (opHeight .div [a.height, b.height]) := by
  have h1 := Nat.mul_le_mul ha.2.1 hb.2.2
  have h2 := Nat.mul_le_mul ha.2.2 hb.2.1
  obtain ⟨c, hc, g1, g2⟩ := RationalNum.div_fits ha.1 hb.1 (h1.trans_lt hf.1) (h2.trans_lt hf.2)
  exact ⟨c, hc, within_rational (opHeight_pos (pair_pos a b)) (g1.trans h1) (g2.trans h2)⟩

end frac

theorem add_fits (ha : a.OK) (hb : b.OK) (hf : Fits (opHeight .add [a.height, b.height])) :
    ∃ c, a.add .strict b = .ok c ∧ Within c (opHeight .add [a.height, b.height]) := by
  have hl := left_fits (.inl rfl) hf
  have hr := right_fits (.inl rfl) hf
  have hp := opHeight_pos (op := .add) (pair_pos a b)
  cases a with
  | real f => cases b <;> exact ⟨_, rfl, within_real hp⟩
  | integer i => cases b with
    | real f => exact ⟨_, rfl, within_real hp⟩
    | integer j =>
      have hf' := hf.1
      simp only [opHeight, height] at hf'
      have f := i64Add_fits .strict (a := i) (b := j) (by unfold InI64; omega)
      have fx := i64Add_exact (by simp) f
      refine ⟨_, show (i64Add .strict i j >>= _) = _ by rw [f]; rfl, within_integer hp ?_⟩
      rw [fx]
      simp only [opHeight, height]
      omega
    | rational s =>
      obtain ⟨r, h1, h2⟩ := frac_integer hl
      obtain ⟨c, hc, hw⟩ := add_frac h2 (frac_rational hb) hf
      exact ⟨_, show (RationalNum.ofI64 .strict i >>= _) = _ by rw [h1, Res.ok_bind, hc]; rfl, hw⟩
  | rational r => cases b with
    | real f => exact ⟨_, rfl, within_real hp⟩
    | integer j =>
      obtain ⟨s, h1, h2⟩ := frac_integer hr
      obtain ⟨c, hc, hw⟩ := add_frac (frac_rational ha) h2 hf
      exact ⟨_, show (RationalNum.ofI64 .strict j >>= _) = _ by rw [h1, Res.ok_bind, hc]; rfl, hw⟩
    | rational s =>
      obtain ⟨c, hc, hw⟩ := add_frac (frac_rational ha) (frac_rational hb) hf
      exact ⟨_, show (RationalNum.add .strict r s >>= _) = _ by rw [hc]; rfl, hw⟩

theorem sub_fits (ha : a.OK) (hb : b.OK) (hf : Fits (opHeight .sub [a.height, b.height])) :
    ∃ c, a.sub .strict b = .ok c ∧ Within c (opHeight .sub [a.height, b.height]) := by
  have hl := left_fits (.inr (.inl rfl)) hf
  have hr := right_fits (.inr (.inl rfl)) hf
  have hp := opHeight_pos (op := .sub) (pair_pos a b)
  cases a with
  | real f => cases b <;> exact ⟨_, rfl, within_real hp⟩
  | integer i => cases b with
    | real f => exact ⟨_, rfl, within_real hp⟩
    | integer j =>
      have hf' := hf.1
      simp only [opHeight, height] at hf'
      have f := i64Sub_fits .strict (a := i) (b := j) (by unfold InI64; omega)
      have fx := i64Sub_exact (by simp) f
      refine ⟨_, show (i64Sub .strict i j >>= _) = _ by rw [f]; rfl, within_integer hp ?_⟩
      rw [fx]
      simp only [opHeight, height]
      omega
    | rational s =>
      obtain ⟨r, h1, h2⟩ := frac_integer hl
      obtain ⟨c, hc, hw⟩ := sub_frac h2 (frac_rational hb) hf
      exact ⟨_, show (RationalNum.ofI64 .strict i >>= _) = _ by rw [h1, Res.ok_bind, hc]; rfl, hw⟩
  | rational r => cases b with
    | real f => exact ⟨_, rfl, within_real hp⟩
    | integer j =>
      obtain ⟨s, h1, h2⟩ := frac_integer hr
      obtain ⟨c, hc, hw⟩ := sub_frac (frac_rational ha) h2 hf
      exact ⟨_, show (RationalNum.ofI64 .strict j >>= _) = _ by rw [h1, Res.ok_bind, hc]; rfl, hw⟩
    | rational s =>
      obtain ⟨c, hc, hw⟩ := sub_frac (frac_rational ha) (frac_rational hb) hf
      exact ⟨_, show (RationalNum.sub .strict r s >>= _) = _ by rw [hc]; rfl, hw⟩

theorem mul_fits (ha : a.OK) (hb : b.OK) (hf : Fits (opHeight .mul [a.height, b.height])) :
    ∃ c, a.mul .strict b = .ok c ∧ Within c (opHeight .mul [a.height, b.height]) := by
  have hl := left_fits (.inr (.inr (.inl rfl))) hf
  have hr := right_fits (.inr (.inr (.inl rfl))) hf
  have hp := opHeight_pos (op := .mul) (pair_pos a b)
  unfold mul
  split_ifs
  · exact ⟨_, rfl, within_integer hp (Nat.zero_le _)⟩
  cases a with
  | real f => cases b <;> exact ⟨_, rfl, within_real hp⟩
  | integer i => cases b with
    | real f => exact ⟨_, rfl, within_real hp⟩
    | integer j =>
      have hf' := hf.1
      simp only [opHeight, height] at hf'
      have hn : (i.toInt * j.toInt).natAbs ≤ max 1 i.toInt.natAbs * max 1 j.toInt.natAbs := by
        rw [Int.natAbs_mul]; exact Nat.mul_le_mul (le_max_right _ _) (le_max_right _ _)
      have f := i64Mul_fits .strict (a := i) (b := j) (by unfold InI64; omega)
      have fx := i64Mul_exact (by simp) f
      refine ⟨_, show (i64Mul .strict i j >>= _) = _ by rw [f]; rfl, within_integer hp ?_⟩
      rw [fx]
      exact hn
    | rational s =>
      obtain ⟨r, h1, h2⟩ := frac_integer hl
      obtain ⟨c, hc, hw⟩ := mul_frac h2 (frac_rational hb) hf
      exact ⟨_, show (RationalNum.ofI64 .strict i >>= _) = _ by rw [h1, Res.ok_bind, hc]; rfl, hw⟩
  | rational r => cases b with
    | real f => exact ⟨_, rfl, within_real hp⟩
    | integer j =>
      obtain ⟨s, h1, h2⟩ := frac_integer hr
      obtain ⟨c, hc, hw⟩ := mul_frac (frac_rational ha) h2 hf
      exact ⟨_, show (RationalNum.ofI64 .strict j >>= _) = _ by rw [h1, Res.ok_bind, hc]; rfl, hw⟩
    | rational s =>
      obtain ⟨c, hc, hw⟩ := mul_frac (frac_rational ha) (frac_rational hb) hf
      exact ⟨_, show (RationalNum.mul .strict r s >>= _) = _ by rw [hc]; rfl, hw⟩

theorem div_fits (ha : a.OK) (hb : b.OK) (hf : Fits (opHeight .div [a.height, b.height])) :
    ∃ c, a.div .strict b = .ok c ∧ Within c (opHeight .div [a.height, b.height]) := by
  have hl := left_fits (.inr (.inr (.inr rfl))) hf
  have hr := right_fits (.inr (.inr (.inr rfl))) hf
  have hp := opHeight_pos (op := .div) (pair_pos a b)
  unfold div
  split_ifs
  · exact ⟨_, rfl, within_integer hp (Nat.zero_le _)⟩
  cases a with
  | real f => cases b <;> exact ⟨_, rfl, within_real hp⟩
  | integer i =>
    cases b with
    | real f => exact ⟨_, rfl, within_real hp⟩
    | integer j =>
      obtain ⟨r, h1, h2⟩ := frac_integer hl
      obtain ⟨s, h3, h4⟩ := frac_integer hr
      obtain ⟨c, hc, hw⟩ := div_frac h2 h4 hf
      exact ⟨_, show (RationalNum.ofI64 .strict i >>= _) = _ by rw [h1, Res.ok_bind, h3, Res.ok_bind, hc]; rfl, hw⟩
    | rational s =>
      obtain ⟨r, h1, h2⟩ := frac_integer hl
      obtain ⟨c, hc, hw⟩ := div_frac h2 (frac_rational hb) hf
      exact ⟨_, show (RationalNum.ofI64 .strict i >>= _) = _ by rw [h1, Res.ok_bind, hc]; rfl, hw⟩
  | rational r => cases b with
    | real f => exact ⟨_, rfl, within_real hp⟩
    | integer j =>
      obtain ⟨s, h1, h2⟩ := frac_integer hr
      obtain ⟨c, hc, hw⟩ := div_frac (frac_rational ha) h2 hf
      exact ⟨_, show (RationalNum.ofI64 .strict j >>= _) = _ by rw [h1, Res.ok_bind, hc]; rfl, hw⟩
    | rational s =>
      obtain ⟨c, hc, hw⟩ := div_frac (frac_rational ha) (frac_rational hb) hf
      exact ⟨_, show (RationalNum.div .strict r s >>= _) = _ by rw [hc]; rfl, hw⟩

theorem neg_fits (ha : a.OK) (hf : Fits a.height) : ∃ c, a.neg .strict = .ok c ∧ Within c a.height := by
  have hp := one_le_height a
  cases a with
  | real f => exact ⟨_, rfl, within_real hp⟩
  | integer i =>
    have hf' := hf.1
    simp only [height] at hf'
    have f := i64Neg_fits .strict (a := i) (by unfold InI64; omega)
    have fx := i64Neg_exact (by simp) f
    refine ⟨_, show (i64Neg .strict i >>= _) = _ by rw [f]; rfl, within_integer hp ?_⟩
    rw [fx]
    simp only [height]
    omega
  | rational r =>
    have f := i64Neg_fits .strict (a := r.sign) (by
      unfold InI64; rcases SignOK.toInt (ha r rfl).signOK with h | h | h <;> rw [h] <;> decide)
    have f' : r.neg .strict = .ok { r with sign := -r.sign } := by unfold RationalNum.neg; rw [f]; rfl
    exact ⟨.rational { r with sign := -r.sign }, show (r.neg .strict >>= _) = _ by rw [f']; rfl,
      within_rational hp (le_max_right _ _) (le_max_right _ _)⟩

end SmartNumVal

/-! ### numbers -/

namespace SmartNum
variable [FloatOps F] {x y : SmartNum F}
open SmartNumVal (Fits Within)

omit [FloatOps F] in
theorem wrapVal_within {v : SmartNumVal F} {k : ℕ × ℕ} (h : Within v k) : Within (wrapVal v).value k := by
  have h1 := SmartNumVal.one_le_height v
  have hk : 1 ≤ k.1 ∧ 1 ≤ k.2 := ⟨h1.1.trans h.1, h1.2.trans h.2⟩
  unfold wrapVal
  split_ifs
  · exact SmartNumVal.within_integer hk (Nat.zero_le _)
  · exact SmartNumVal.within_integer hk hk.1
  · exact h

theorem neg_fits (hx : x.Valid) (hf : Fits x.value.height) :
    ∃ z, x.neg .strict = .ok z ∧ Within z.value x.value.height := by
  obtain ⟨c, hc, hw⟩ := SmartNumVal.neg_fits hx.ok hf
  exact ⟨_, show (x.value.neg .strict >>= _) = _ by rw [hc]; rfl, wrapVal_within hw⟩

theorem add_fits (hx : x.Valid) (hy : y.Valid) (hf : Fits (opHeight .add [x.value.height, y.value.height])) :
    ∃ z, x.add .strict y = .ok z ∧ Within z.value (opHeight .add [x.value.height, y.value.height]) := by
  obtain ⟨a1, a2⟩ := SmartNumVal.one_le_height x.value
  obtain ⟨b1, b2⟩ := SmartNumVal.one_le_height y.value
  unfold add
  split_ifs
  · exact ⟨_, rfl, (Nat.le_mul_of_pos_right _ a2).trans (Nat.le_add_left _ _), Nat.le_mul_of_pos_left _ a2⟩
  · exact ⟨_, rfl, (Nat.le_mul_of_pos_right _ b2).trans (Nat.le_add_right _ _), Nat.le_mul_of_pos_right _ b2⟩
  · obtain ⟨c, hc, hw⟩ := SmartNumVal.add_fits hx.ok hy.ok hf
    exact ⟨_, show (x.value.add .strict y.value >>= _) = _ by rw [hc]; rfl, wrapVal_within hw⟩

theorem sub_fits (hx : x.Valid) (hy : y.Valid) (hf : Fits (opHeight .sub [x.value.height, y.value.height])) :
    ∃ z, x.sub .strict y = .ok z ∧ Within z.value (opHeight .sub [x.value.height, y.value.height]) := by
  obtain ⟨a1, a2⟩ := SmartNumVal.one_le_height x.value
  obtain ⟨b1, b2⟩ := SmartNumVal.one_le_height y.value
  have r1 : y.value.height.1 ≤ (opHeight .sub [x.value.height, y.value.height]).1 :=
    (Nat.le_mul_of_pos_right _ a2).trans (Nat.le_add_left _ _)
  have r2 : y.value.height.2 ≤ (opHeight .sub [x.value.height, y.value.height]).2 := Nat.le_mul_of_pos_left _ a2
  unfold sub
  split_ifs
  · obtain ⟨c, hc, hw⟩ := neg_fits hy ⟨r1.trans_lt hf.1, r2.trans_lt hf.2⟩
    exact ⟨c, hc, hw.1.trans r1, hw.2.trans r2⟩
  · exact ⟨_, rfl, (Nat.le_mul_of_pos_right _ b2).trans (Nat.le_add_right _ _), Nat.le_mul_of_pos_right _ b2⟩
  · obtain ⟨c, hc, hw⟩ := SmartNumVal.sub_fits hx.ok hy.ok hf
    exact ⟨_, show (x.value.sub .strict y.value >>= _) = _ by rw [hc]; rfl, wrapVal_within hw⟩

theorem mul_fits (hx : x.Valid) (hy : y.Valid) (hf : Fits (opHeight .mul [x.value.height, y.value.height])) :
    ∃ z, x.mul .strict y = .ok z ∧ Within z.value (opHeight .mul [x.value.height, y.value.height]) := by
  obtain ⟨a1, a2⟩ := SmartNumVal.one_le_height x.value
  obtain ⟨b1, b2⟩ := SmartNumVal.one_le_height y.value
  unfold mul
  split_ifs
  · exact ⟨_, rfl, Nat.le_mul_of_pos_left _ a1, Nat.le_mul_of_pos_left _ a2⟩
  · exact ⟨_, rfl, Nat.le_mul_of_pos_right _ b1, Nat.le_mul_of_pos_right _ b2⟩
  · obtain ⟨c, hc, hw⟩ := SmartNumVal.mul_fits hx.ok hy.ok hf
    exact ⟨_, show (x.value.mul .strict y.value >>= _) = _ by rw [hc]; rfl, wrapVal_within hw⟩

theorem div_fits (hx : x.Valid) (hy : y.Valid) (hf : Fits (opHeight .div [x.value.height, y.value.height])) :
    ∃ z, x.div .strict y = .ok z ∧ Within z.value (opHeight .div [x.value.height, y.value.height]) := by
  obtain ⟨c, hc, hw⟩ := SmartNumVal.div_fits hx.ok hy.ok hf
  exact ⟨_, show (x.value.div .strict y.value >>= _) = _ by rw [hc]; rfl, wrapVal_within hw⟩

end SmartNum
end SymRust
