import Verif.Spec.Number
import Verif.Proofs.Rational
set_option linter.unusedSimpArgs false
/-! Helper lemmas about numbers. -/

namespace SymRust
variable {F : Type}

namespace RationalNum

/-- sign -1, 0 or 1; 0 only with nominator 0 -/
def SignOK (r : RationalNum) : Prop :=
  (r.sign = 1 ∨ r.sign = -1) ∨ (r.sign = 0 ∧ r.nominator = 0)

/-- as `SignOK`, and sign 0 only for 0/0 -/
def StoredOK (r : RationalNum) : Prop :=
  (r.sign = 1 ∨ r.sign = -1) ∨ (r.sign = 0 ∧ r.nominator = 0 ∧ r.denominator = 0)

theorem StoredOK.signOK {r : RationalNum} (h : r.StoredOK) : r.SignOK := by
  rcases h with h | h
  · exact .inl h
  · exact .inr ⟨h.1, h.2.1⟩

theorem StoredOK.valid {r : RationalNum} (h : r.StoredOK) (hd : r.denominator ≠ 0) : r.Valid := by
  rcases h with h | h
  · exact ⟨h, hd⟩
  · exact absurd h.2.2 hd

theorem Valid.storedOK {r : RationalNum} (h : r.Valid) : r.StoredOK := .inl h.1

theorem SignOK.reduce {r : RationalNum} (h : r.SignOK) : r.reduce.SignOK := by
  rcases h with h | h
  · exact .inl h
  · exact .inr ⟨h.1, (reduce_nominator_eq_zero r).mpr h.2⟩

theorem signum_cases (s : Int64) : i64Signum s = 1 ∨ i64Signum s = -1 ∨ (i64Signum s = 0 ∧ s = 0) := by
  unfold i64Signum
  split
  · exact .inr (.inl rfl)
  · split
    · exact .inr (.inr ⟨rfl, by assumption⟩)
    · exact .inl rfl

theorem add_signOK {m : Mode} {a b c : RationalNum} (h : add m a b = .ok c) : c.SignOK := by
  unfold add at h
  simp only [Res.bind_eq_ok, Res.pure_eq, Res.ok.injEq] at h
  obtain ⟨p, hp, p', hp', x, hx, q, hq, q', hq', y, hy, s, hs, t, ht, d, hd, rfl⟩ := h
  apply SignOK.reduce
  rcases signum_cases s with h | h | h
  · exact .inl (.inl h)
  · exact .inl (.inr h)
  · refine .inr ⟨h.1, ?_⟩
    rw [checked_ok ht, h.2]; show castU64 (if (0 : Int64) < 0 then -0 else 0) = 0; decide

theorem sub_signOK {m : Mode} {a b c : RationalNum} (h : sub m a b = .ok c) : c.SignOK := by
  unfold sub at h
  simp only [Res.bind_eq_ok, Res.pure_eq, Res.ok.injEq] at h
  obtain ⟨p, hp, p', hp', x, hx, q, hq, q', hq', y, hy, s, hs, t, ht, d, hd, rfl⟩ := h
  apply SignOK.reduce
  rcases signum_cases s with h | h | h
  · exact .inl (.inl h)
  · exact .inl (.inr h)
  · refine .inr ⟨h.1, ?_⟩
    rw [checked_ok ht, h.2]; show castU64 (if (0 : Int64) < 0 then -0 else 0) = 0; decide

theorem mul_sign_cases {a b : RationalNum} (ha : a.SignOK) (hb : b.SignOK) :
    (a.sign * b.sign = 1 ∨ a.sign * b.sign = -1) ∨
      (a.sign * b.sign = 0 ∧ ((a.sign = 0 ∧ a.nominator = 0) ∨ (b.sign = 0 ∧ b.nominator = 0))) := by
  rcases ha with (h | h) | h <;> rcases hb with (h' | h') | h' <;> simp [h, h']

theorem mul_signOK {m : Mode} {a b c : RationalNum} (ha : a.SignOK) (hb : b.SignOK)
    (h : mul m a b = .ok c) : c.SignOK := by
  unfold mul at h
  simp only [Res.bind_eq_ok, Res.pure_eq, Res.ok.injEq] at h
  obtain ⟨s, hs, n, hn, d, hd, rfl⟩ := h
  apply SignOK.reduce
  rw [checked_ok hs, checked_ok hn]
  rcases mul_sign_cases ha hb with h | ⟨h0, h | h⟩
  · exact .inl h
  · exact .inr ⟨h0, by simp [h.2]⟩
  · exact .inr ⟨h0, by simp [h.2]⟩

theorem div_signOK {m : Mode} {a b c : RationalNum} (ha : a.SignOK) (hb : b.StoredOK)
    (h : div m a b = .ok c) : c.SignOK := by
  unfold div at h
  simp only [Res.bind_eq_ok, Res.pure_eq, Res.ok.injEq] at h
  obtain ⟨s, hs, n, hn, d, hd, rfl⟩ := h
  apply SignOK.reduce
  rw [checked_ok hs, checked_ok hn]
  rcases mul_sign_cases ha hb.signOK with h | ⟨h0, h | h⟩
  · exact .inl h
  · exact .inr ⟨h0, by simp [h.2]⟩
  · rcases hb with hb | hb
    · rw [h.1] at hb; exact absurd hb (by decide)
    · exact .inr ⟨h0, by simp [hb.2.2]⟩

theorem neg_storedOK {m : Mode} {a c : RationalNum} (ha : a.StoredOK)
    (h : neg m a = .ok c) : c.StoredOK := by
  unfold neg at h
  simp only [Res.bind_eq_ok, Res.pure_eq, Res.ok.injEq] at h
  obtain ⟨s, hs, rfl⟩ := h
  rw [checked_ok hs]
  rcases ha with (h | h) | h
  · left; right; dsimp only; rw [h]
  · left; left; dsimp only; rw [h]; decide
  · right; dsimp only; rw [h.1]; exact ⟨by decide, h.2⟩

theorem ofI64_valid {m : Mode} {v : Int64} {r : RationalNum} (h : ofI64 m v = .ok r) : r.Valid := by
  unfold ofI64 at h
  simp only [Res.bind_eq_ok, Res.pure_eq, Res.ok.injEq] at h
  obtain ⟨a, ha, rfl⟩ := h
  refine ⟨?_, by show (1 : UInt64) ≠ 0; decide⟩
  dsimp only
  split
  · exact .inl rfl
  · rcases signum_cases v with h | h | h
    · exact .inl h
    · exact .inr h
    · exact absurd h.2 (by assumption)

theorem value_eq_one {r : RationalNum} (h : r.Valid) :
    r.value = 1 ↔ r.sign = 1 ∧ r.nominator = r.denominator := by
  unfold value
  rw [div_eq_one_iff_eq (den_cast_ne h.2), i64_eq_one_iff, ← UInt64.toNat_inj]
  have hd : r.denominator.toNat ≠ 0 := by have := h.2; rwa [Ne, u64_eq_zero_iff] at this
  have : ((r.sign.toInt : ℚ) * (r.nominator.toNat : ℚ) = (r.denominator.toNat : ℚ)) ↔
      (r.sign.toInt * (r.nominator.toNat : ℤ) = (r.denominator.toNat : ℤ)) := by
    constructor <;> intro h <;> exact_mod_cast h
  rw [this]
  rcases h.sign_toInt with h | h <;> rw [h] <;> omega

end RationalNum

namespace SmartNumVal

/-- stored fractions are `StoredOK` -/
def OK (v : SmartNumVal F) : Prop := ∀ r, v = .rational r → r.StoredOK
/-- fractions are `SignOK` -/
def PreOK (v : SmartNumVal F) : Prop := ∀ r, v = .rational r → r.SignOK

theorem OK.pre {v : SmartNumVal F} (h : v.OK) : v.PreOK := fun r hr => (h r hr).signOK

theorem ok_integer (i : Int64) : (SmartNumVal.integer i : SmartNumVal F).OK := fun r h => by cases h
theorem ok_real (f : F) : (SmartNumVal.real f : SmartNumVal F).OK := fun r h => by cases h

theorem isZero_iff {v : SmartNumVal F} (h : v.OK) : v.isZero = true ↔ v.exact? = some 0 := by
  cases v with
  | integer i =>
    simp only [isZero, exact?, beq_iff_eq, Option.some.injEq, i64_eq_zero_iff]
    exact_mod_cast Iff.rfl
  | real f => simp [isZero, exact?]
  | rational r =>
    have hr := h r rfl
    by_cases hd : r.denominator = 0
    · simp [isZero, exact?, hd]
    · simp [isZero, exact?, hd, RationalNum.value_eq_zero (hr.valid hd)]

theorem isOne_iff {v : SmartNumVal F} (h : v.OK) : v.isOne = true ↔ v.exact? = some 1 := by
  cases v with
  | integer i =>
    simp only [isOne, exact?, beq_iff_eq, Option.some.injEq, i64_eq_one_iff]
    exact_mod_cast Iff.rfl
  | real f => simp [isOne, exact?]
  | rational r =>
    have hr := h r rfl
    by_cases hd : r.denominator = 0
    · simp [isOne, exact?, hd]
    · simp [isOne, exact?, hd, RationalNum.value_eq_one (hr.valid hd)]

theorem not_zero_and_one {v : SmartNumVal F} (h : v.isZero = true) : v.isOne = false := by
  cases v with
  | integer i => simp only [isZero, beq_iff_eq] at h; subst h; rfl
  | real f => rfl
  | rational r =>
    simp only [isZero, Bool.and_eq_true, beq_iff_eq, bne_iff_ne] at h
    simp only [isOne, h.1]
    have : (0 == r.denominator) = false := by
      rw [beq_eq_false_iff_ne]; exact h.2.symm
    simp [this]

theorem PreOK.ok_of_not_zero {v : SmartNumVal F} (h : v.PreOK) (hz : v.isZero = false) : v.OK := by
  intro r hr
  subst hr
  rcases h r rfl with h | h
  · exact .inl h
  · refine .inr ⟨h.1, h.2, ?_⟩
    simpa [isZero, h.2] using hz

variable [FloatOps F]

theorem add_preOK {m : Mode} {a b c : SmartNumVal F}
    (h : add m a b = .ok c) : c.PreOK := by
  intro r hr
  subst hr
  unfold add at h
  cases a <;> cases b <;>
    simp only [Res.bind_eq_ok, Res.pure_eq, Res.ok.injEq, reduceCtorEq, rational.injEq, and_false,
      exists_false] at h
  · obtain ⟨_, _, _, h, rfl⟩ := h; exact RationalNum.add_signOK h
  · obtain ⟨_, _, _, h, rfl⟩ := h; exact RationalNum.add_signOK h
  · obtain ⟨_, h, rfl⟩ := h; exact RationalNum.add_signOK h

theorem sub_preOK {m : Mode} {a b c : SmartNumVal F}
    (h : sub m a b = .ok c) : c.PreOK := by
  intro r hr
  subst hr
  unfold sub at h
  cases a <;> cases b <;>
    simp only [Res.bind_eq_ok, Res.pure_eq, Res.ok.injEq, reduceCtorEq, rational.injEq, and_false,
      exists_false] at h
  · obtain ⟨_, _, _, h, rfl⟩ := h; exact RationalNum.sub_signOK h
  · obtain ⟨_, _, _, h, rfl⟩ := h; exact RationalNum.sub_signOK h
  · obtain ⟨_, h, rfl⟩ := h; exact RationalNum.sub_signOK h

theorem mul_preOK {m : Mode} {a b c : SmartNumVal F} (ha : a.OK) (hb : b.OK)
    (h : mul m a b = .ok c) : c.PreOK := by
  intro r hr
  subst hr
  unfold mul at h
  split at h
  · cases h
  cases a <;> cases b <;>
    simp only [Res.bind_eq_ok, Res.pure_eq, Res.ok.injEq, reduceCtorEq, rational.injEq, and_false,
      exists_false] at h
  · obtain ⟨_, h0, _, h, rfl⟩ := h
    exact RationalNum.mul_signOK (RationalNum.ofI64_valid h0).storedOK.signOK (hb _ rfl).signOK h
  · obtain ⟨_, h0, _, h, rfl⟩ := h
    exact RationalNum.mul_signOK (ha _ rfl).signOK (RationalNum.ofI64_valid h0).storedOK.signOK h
  · obtain ⟨_, h, rfl⟩ := h; exact RationalNum.mul_signOK (ha _ rfl).signOK (hb _ rfl).signOK h

theorem div_preOK {m : Mode} {a b c : SmartNumVal F} (ha : a.OK) (hb : b.OK)
    (h : div m a b = .ok c) : c.PreOK := by
  intro r hr
  subst hr
  unfold div at h
  split at h
  · cases h
  cases a <;> cases b <;>
    simp only [Res.bind_eq_ok, Res.pure_eq, Res.ok.injEq, reduceCtorEq, rational.injEq, and_false,
      exists_false] at h
  · obtain ⟨_, h0, _, h1, _, h, rfl⟩ := h
    exact RationalNum.div_signOK (RationalNum.ofI64_valid h0).storedOK.signOK
      (RationalNum.ofI64_valid h1).storedOK h
  · obtain ⟨_, h0, _, h, rfl⟩ := h
    exact RationalNum.div_signOK (RationalNum.ofI64_valid h0).storedOK.signOK (hb _ rfl) h
  · obtain ⟨_, h0, _, h, rfl⟩ := h
    exact RationalNum.div_signOK (ha _ rfl).signOK (RationalNum.ofI64_valid h0).storedOK h
  · obtain ⟨_, h, rfl⟩ := h; exact RationalNum.div_signOK (ha _ rfl).signOK (hb _ rfl) h

theorem neg_ok {m : Mode} {a c : SmartNumVal F} (ha : a.OK)
    (h : neg m a = .ok c) : c.OK := by
  intro r hr
  subst hr
  unfold neg at h
  cases a <;>
    simp only [Res.bind_eq_ok, Res.pure_eq, Res.ok.injEq, reduceCtorEq, rational.injEq, and_false,
      exists_false] at h
  obtain ⟨_, h, rfl⟩ := h; exact RationalNum.neg_storedOK (ha _ rfl) h

end SmartNumVal

namespace SmartNum
variable [FloatOps F]

theorem Valid.ok {x : SmartNum F} (h : x.Valid) : x.value.OK := h.sign_val

theorem valid_mk {v : SmartNumVal F} {t : ConstType} (hv : v.OK) (hz : t = .zero ↔ v.isZero = true)
    (ho : t = .one ↔ v.isOne = true) (hp : t = .pi → v = .real FloatOps.pi)
    (he : t = .e → v = .real FloatOps.e) : (SmartNum.mk v t).Valid := by
  refine ⟨?_, ?_, ?_, ?_, hv⟩
  · rw [exact?, ← SmartNumVal.isZero_iff hv, ← hz]; simp [isZero]
  · rw [exact?, ← SmartNumVal.isOne_iff hv, ← ho]; simp [isOne]
  · simpa [isPi] using hp
  · simpa [isE] using he

theorem valid_zero : (zero : SmartNum F).Valid :=
  valid_mk (SmartNumVal.ok_integer 0) (by simp [SmartNumVal.isZero]) (by simp [SmartNumVal.isOne]) (by simp) (by simp)
theorem valid_one : (one : SmartNum F).Valid :=
  valid_mk (SmartNumVal.ok_integer 1) (by simp [SmartNumVal.isZero]) (by simp [SmartNumVal.isOne]) (by simp) (by simp)
theorem valid_pi : (pi : SmartNum F).Valid :=
  valid_mk (SmartNumVal.ok_real _) (by simp [SmartNumVal.isZero]) (by simp [SmartNumVal.isOne])
    (by simp) (by simp)
theorem valid_e : (e : SmartNum F).Valid :=
  valid_mk (SmartNumVal.ok_real _) (by simp [SmartNumVal.isZero]) (by simp [SmartNumVal.isOne])
    (by simp) (by simp)

omit [FloatOps F] in
theorem tag_cases (v : SmartNumVal F) (t : ConstType)
    (ht : t = if v.isOne = true then .one else if v.isZero = true then .zero else .nothing) :
    (t = .zero ↔ v.isZero = true) ∧ (t = .one ↔ v.isOne = true) ∧ t ≠ .pi ∧ t ≠ .e := by
  subst ht
  cases h1 : v.isOne <;> cases h0 : v.isZero <;> simp
  have := SmartNumVal.not_zero_and_one h0
  rw [h1] at this; cases this

theorem valid_ofVal {v : SmartNumVal F} (h : v.OK) : (ofVal v).Valid := by
  obtain ⟨a, b, c, d⟩ := tag_cases v _ rfl
  exact valid_mk h a b (fun h => absurd h c) (fun h => absurd h d)

theorem valid_wrapVal {v : SmartNumVal F} (h : v.PreOK) : (wrapVal v).Valid := by
  unfold wrapVal
  split
  · exact valid_zero
  · rename_i h0
    split
    · exact valid_one
    · rename_i h1
      exact valid_mk (h.ok_of_not_zero (by simpa using h0)) (by simp [h0]) (by simp [h1]) (by simp)
        (by simp)

theorem valid_ofI64 (v : Int64) : (ofI64 v : SmartNum F).Valid := valid_ofVal (SmartNumVal.ok_integer v)
theorem valid_ofF64 (v : F) : (ofF64 v : SmartNum F).Valid := valid_ofVal (SmartNumVal.ok_real v)

theorem valid_ofU64 {m : Mode} {v : UInt64} {x : SmartNum F} (h : ofU64 m v = .ok x) : x.Valid := by
  unfold ofU64 SmartNumVal.ofU64 at h
  simp only [Res.bind_eq_ok, Res.pure_eq, Res.ok.injEq] at h
  obtain ⟨_, ⟨i, _, rfl⟩, rfl⟩ := h
  exact valid_ofI64 i

theorem valid_newRational {m : Mode} {s : Int64} {n d : UInt64} {x : SmartNum F}
    (h : newRational m s n d = .ok (some x)) : x.Valid := by
  unfold newRational SmartNumVal.newRational RationalNum.new at h
  simp only [Res.bind_eq_ok, Res.pure_eq, Res.ok.injEq] at h
  obtain ⟨v, ⟨r, ⟨a, ha, hr⟩, rfl⟩, hx⟩ := h
  split at hr
  · rename_i hc
    cases hr
    simp only [Option.map_some, Option.some.injEq] at hx
    subst hx
    have hs : s = 1 ∨ s = -1 := by
      have h1 := hc.1
      rw [checked_ok ha] at h1
      split at h1
      · right
        have : s = - -s := by simp
        rw [this, h1]
      · exact .inl h1
    have hv : (SmartNumVal.rational ⟨s, n, d⟩ : SmartNumVal F).OK := by
      intro r hr; cases hr; exact .inl hs
    refine valid_mk hv ?_ ?_ ?_ ?_
    · cases h0 : (SmartNumVal.rational ⟨s, n, d⟩ : SmartNumVal F).isZero <;>
      cases h1 : (SmartNumVal.rational ⟨s, n, d⟩ : SmartNumVal F).isOne <;> simp
    · cases h0 : (SmartNumVal.rational ⟨s, n, d⟩ : SmartNumVal F).isZero
      · cases h1 : (SmartNumVal.rational ⟨s, n, d⟩ : SmartNumVal F).isOne <;> simp
      · rw [SmartNumVal.not_zero_and_one h0]; simp
    · split
      · simp
      · split <;> simp
    · split
      · simp
      · split <;> simp
  · cases hr; cases hx

theorem valid_neg {m : Mode} {x y : SmartNum F} (hx : x.Valid) (h : x.neg m = .ok y) : y.Valid := by
  unfold neg at h
  simp only [Res.bind_eq_ok, Res.pure_eq, Res.ok.injEq] at h
  obtain ⟨v, hv, rfl⟩ := h
  exact valid_wrapVal (SmartNumVal.neg_ok hx.ok hv).pre

theorem valid_add {m : Mode} {x y z : SmartNum F} (hx : x.Valid) (hy : y.Valid)
    (h : x.add m y = .ok z) : z.Valid := by
  unfold add at h
  split at h
  · cases h; exact hy
  split at h
  · cases h; exact hx
  simp only [Res.bind_eq_ok, Res.pure_eq, Res.ok.injEq] at h
  obtain ⟨v, hv, rfl⟩ := h
  exact valid_wrapVal (SmartNumVal.add_preOK hv)

theorem valid_sub {m : Mode} {x y z : SmartNum F} (hx : x.Valid) (hy : y.Valid)
    (h : x.sub m y = .ok z) : z.Valid := by
  unfold sub at h
  split at h
  · exact valid_neg hy h
  split at h
  · cases h; exact hx
  simp only [Res.bind_eq_ok, Res.pure_eq, Res.ok.injEq] at h
  obtain ⟨v, hv, rfl⟩ := h
  exact valid_wrapVal (SmartNumVal.sub_preOK hv)

theorem valid_mul {m : Mode} {x y z : SmartNum F} (hx : x.Valid) (hy : y.Valid)
    (h : x.mul m y = .ok z) : z.Valid := by
  unfold mul at h
  split at h
  · cases h; exact hy
  split at h
  · cases h; exact hx
  simp only [Res.bind_eq_ok, Res.pure_eq, Res.ok.injEq] at h
  obtain ⟨v, hv, rfl⟩ := h
  exact valid_wrapVal (SmartNumVal.mul_preOK hx.ok hy.ok hv)

theorem valid_div {m : Mode} {x y z : SmartNum F} (hx : x.Valid) (hy : y.Valid)
    (h : x.div m y = .ok z) : z.Valid := by
  unfold div at h
  simp only [Res.bind_eq_ok, Res.pure_eq, Res.ok.injEq] at h
  obtain ⟨v, hv, rfl⟩ := h
  exact valid_wrapVal (SmartNumVal.div_preOK hx.ok hy.ok hv)

theorem Reachable.valid {m : Mode} {x : SmartNum F} (h : x.Reachable m) : x.Valid := by
  induction h with
  | ofI64 v => exact valid_ofI64 v
  | ofU64 v x h => exact valid_ofU64 h
  | ofF64 v => exact valid_ofF64 v
  | newRational s n d x h => exact valid_newRational h
  | one => exact valid_one
  | zero => exact valid_zero
  | pi => exact valid_pi
  | e => exact valid_e
  | neg x y _ h ih => exact valid_neg ih h
  | add x y z _ _ h i1 i2 => exact valid_add i1 i2 h
  | sub x y z _ _ h i1 i2 => exact valid_sub i1 i2 h
  | mul x y z _ _ h i1 i2 => exact valid_mul i1 i2 h
  | div x y z _ _ h i1 i2 => exact valid_div i1 i2 h

end SmartNum
end SymRust
