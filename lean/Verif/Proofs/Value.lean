import Verif.Spec.Semantics
import Verif.Proofs.NumberOps
/-! The real value of numbers and the number operations. -/

namespace SymRust
variable {F : Type} [ExactFloat F]

namespace SmartNumVal

/-- `v` stands for the real number `a`. -/
def IsV (v : SmartNumVal F) (a : ℝ) : Prop :=
  (∃ q : ℚ, v.exact? = some q ∧ a = q) ∨ (∃ f, v = .real f ∧ a = ExactFloat.val f)

theorem isV_real {f : F} : IsV (.real f) (ExactFloat.val f) := .inr ⟨f, rfl, rfl⟩

theorem IsV.toF64 {v : SmartNumVal F} {a : ℝ} (h : IsV v a) : ExactFloat.val v.toF64 = a := by
  rcases h with ⟨q, hq, rfl⟩ | ⟨f, rfl, rfl⟩
  · cases v with
    | integer i =>
      simp only [exact?, Option.some.injEq] at hq
      subst hq
      simp [SmartNumVal.toF64, ExactFloat.val_ofI64]
    | rational r =>
      simp only [exact?] at hq
      split at hq
      · cases hq
      rename_i hd
      cases hq
      have hd' : (r.denominator.toNat : ℝ) ≠ 0 := by
        intro h
        apply hd
        have h' : r.denominator.toNat = 0 := by exact_mod_cast h
        exact UInt64.toNat.inj (by simpa using h')
      simp only [SmartNumVal.toF64, RationalNum.toF64, RationalNum.value]
      rw [ExactFloat.val_div _ _ (by rw [ExactFloat.val_ofU64]; exact hd'), ExactFloat.val_mul,
        ExactFloat.val_ofI64, ExactFloat.val_ofU64, ExactFloat.val_ofU64]
      push_cast; rfl
    | real f => simp [exact?] at hq
  · rfl

theorem IsV.unique {v : SmartNumVal F} {a b : ℝ} (h : IsV v a) (h' : IsV v b) : a = b := by
  rw [← h.toF64, h'.toF64]

theorem IsV.exact {v : SmartNumVal F} {a : ℝ} (h : IsV v a) (hf : ¬ v.isF) : ∃ q : ℚ, v.exact? = some q ∧ a = q := by
  rcases h with h | ⟨f, rfl, -⟩
  · exact h
  · exact absurd (by simp [isF]) hf

theorem IsV.wrap {v : SmartNumVal F} {a : ℝ} (hv : v.PreOK) (h : IsV v a) : IsV (SmartNum.wrapVal v).value a := by
  rcases h with ⟨q, hq, rfl⟩ | ⟨f, rfl, rfl⟩
  · exact .inl ⟨q, SmartNum.exact_wrapVal hv hq, rfl⟩
  · exact .inr ⟨f, rfl, rfl⟩

theorem IsV.zero {v : SmartNumVal F} {a : ℝ} (h : IsV v a) (h0 : v.exact? = some 0) : a = 0 :=
  h.unique (.inl ⟨0, h0, by simp⟩)

theorem add_real {m : Mode} {a b : SmartNumVal F} (h : a.isF ∨ b.isF) :
    add m a b = .ok (.real (FloatOps.add a.toF64 b.toF64)) := by
  cases a <;> cases b <;> first | rfl | simp [isF] at h
theorem sub_real {m : Mode} {a b : SmartNumVal F} (h : a.isF ∨ b.isF) :
    sub m a b = .ok (.real (FloatOps.sub a.toF64 b.toF64)) := by
  cases a <;> cases b <;> first | rfl | simp [isF] at h
theorem mul_real {m : Mode} {a b : SmartNumVal F} (h : a.isF ∨ b.isF) (hz : (a.isZero || b.isZero) = false) :
    mul m a b = .ok (.real (FloatOps.mul a.toF64 b.toF64)) := by
  cases a <;> cases b <;> first | (simp [isF] at h; done) | (unfold mul; rw [if_neg (by simpa using hz)]; rfl)
theorem div_real {m : Mode} {a b : SmartNumVal F} (h : a.isF ∨ b.isF) (hz : a.isZero = false) :
    div m a b = .ok (.real (FloatOps.div a.toF64 b.toF64)) := by
  cases a <;> cases b <;> first | (simp [isF] at h; done) | (unfold div; rw [if_neg (by simpa using hz)]; rfl)

end SmartNumVal

namespace SmartNum
open SmartNumVal

theorem value?_iff {x : SmartNum F} {a : ℝ} : x.value? = some a ↔ x.value.IsV a := by
  unfold value? IsV exact?
  cases x.value with
  | integer v => simp [SmartNumVal.exact?, eq_comm]
  | rational v => simp only [SmartNumVal.exact?]; split <;> simp [eq_comm]
  | real v => simp [SmartNumVal.exact?, eq_comm]

variable {x y z : SmartNum F} {a b : ℝ}

theorem Valid.value_zero (hx : x.Valid) (h : x.isZero = true) : x.value? = some 0 :=
  value?_iff.2 (.inl ⟨0, hx.zero_iff.1 h, by simp⟩)
theorem Valid.value_one (hx : x.Valid) (h : x.isOne = true) : x.value? = some 1 :=
  value?_iff.2 (.inl ⟨1, hx.one_iff.1 h, by simp⟩)
theorem Valid.value_pi (hx : x.Valid) (h : x.isPi = true) : x.value? = some Real.pi :=
  value?_iff.2 (.inr ⟨_, hx.pi_val h, ExactFloat.val_pi.symm⟩)
theorem Valid.value_e (hx : x.Valid) (h : x.isE = true) : x.value? = some (Real.exp 1) :=
  value?_iff.2 (.inr ⟨_, hx.e_val h, ExactFloat.val_e.symm⟩)

theorem value?_ofI64 (v : Int64) : (ofI64 v : SmartNum F).value? = some (v.toInt : ℝ) := by
  simp [value?, ofI64, ofVal, SmartNumVal.ofI64, exact?, SmartNumVal.exact?]

theorem value?_neg (hx : x.Valid) (ha : x.value? = some a) (h : x.neg .strict = .ok z) :
    z.value? = some (-a) := by
  rw [value?_iff] at *
  rcases ha with ⟨q, hq, rfl⟩ | ⟨f, hf, rfl⟩
  · exact .inl ⟨-q, neg_exact (by simp) hx hq h, by push_cast; rfl⟩
  · unfold neg at h
    rw [hf] at h
    cases h
    exact .inr ⟨_, rfl, (ExactFloat.val_neg f).symm⟩

theorem value?_add (hx : x.Valid) (hy : y.Valid) (ha : x.value? = some a) (hb : y.value? = some b)
    (h : x.add .strict y = .ok z) : z.value? = some (a + b) := by
  rw [value?_iff] at *
  by_cases hf : x.value.isF ∨ y.value.isF
  · unfold add at h
    split at h
    · rename_i h0
      cases h; rw [ha.zero (hx.zero_iff.1 h0), zero_add]; exact hb
    split at h
    · rename_i h0
      cases h; rw [hb.zero (hy.zero_iff.1 h0), add_zero]; exact ha
    rw [add_real hf] at h
    cases h
    rw [← ha.toF64, ← hb.toF64, ← ExactFloat.val_add]
    exact .inr ⟨_, rfl, rfl⟩
  · rw [not_or] at hf
    obtain ⟨p, hp, rfl⟩ := ha.exact hf.1
    obtain ⟨q, hq, rfl⟩ := hb.exact hf.2
    exact .inl ⟨p + q, add_exact hx hy hp hq h, by push_cast; rfl⟩

theorem value?_sub (hx : x.Valid) (hy : y.Valid) (ha : x.value? = some a) (hb : y.value? = some b)
    (h : x.sub .strict y = .ok z) : z.value? = some (a - b) := by
  by_cases hf : x.value.isF ∨ y.value.isF
  · unfold sub at h
    split at h
    · rename_i h0
      rw [hx.value_zero h0] at ha; cases ha; rw [zero_sub]; exact value?_neg hy hb h
    rw [value?_iff] at *
    split at h
    · rename_i h0
      cases h; rw [hb.zero (hy.zero_iff.1 h0), sub_zero]; exact ha
    rw [sub_real hf] at h
    cases h
    rw [← ha.toF64, ← hb.toF64, ← ExactFloat.val_sub]
    exact .inr ⟨_, rfl, rfl⟩
  · rw [value?_iff] at *
    rw [not_or] at hf
    obtain ⟨p, hp, rfl⟩ := ha.exact hf.1
    obtain ⟨q, hq, rfl⟩ := hb.exact hf.2
    exact .inl ⟨p - q, sub_exact hx hy hp hq h, by push_cast; rfl⟩

theorem value?_mul (hx : x.Valid) (hy : y.Valid) (ha : x.value? = some a) (hb : y.value? = some b)
    (h : x.mul .strict y = .ok z) : z.value? = some (a * b) := by
  by_cases hf : x.value.isF ∨ y.value.isF
  · unfold mul at h
    split at h
    · rename_i h0
      rw [hx.value_one h0] at ha; cases ha; cases h; rw [one_mul]; exact hb
    split at h
    · rename_i h0
      rw [hy.value_one h0] at hb; cases hb; cases h; rw [mul_one]; exact ha
    rw [value?_iff] at *
    by_cases hz : (x.value.isZero || y.value.isZero) = true
    · have : x.value.mul .strict y.value = .ok (.integer 0) := by unfold SmartNumVal.mul; rw [if_pos hz]
      rw [this] at h
      cases h
      have h0 : a * b = 0 := by
        rw [Bool.or_eq_true] at hz
        rcases hz with hz | hz
        · rw [ha.zero ((isZero_iff hx.ok).1 hz), zero_mul]
        · rw [hb.zero ((isZero_iff hy.ok).1 hz), mul_zero]
      rw [h0]
      exact .inl ⟨0, rfl, by simp⟩
    rw [mul_real hf (by simpa using hz)] at h
    cases h
    rw [← ha.toF64, ← hb.toF64, ← ExactFloat.val_mul]
    exact .inr ⟨_, rfl, rfl⟩
  · rw [value?_iff] at *
    rw [not_or] at hf
    obtain ⟨p, hp, rfl⟩ := ha.exact hf.1
    obtain ⟨q, hq, rfl⟩ := hb.exact hf.2
    exact .inl ⟨p * q, mul_exact (by simp) hx hy hp hq h, by push_cast; rfl⟩

theorem value?_div (hx : x.Valid) (hy : y.Valid) (ha : x.value? = some a) (hb : y.value? = some b)
    (h0 : b ≠ 0) (h : x.div .strict y = .ok z) : z.value? = some (a / b) := by
  rw [value?_iff] at *
  by_cases hf : x.value.isF ∨ y.value.isF
  · unfold div at h
    by_cases hz : x.value.isZero = true
    · have : x.value.div .strict y.value = .ok (.integer 0) := by unfold SmartNumVal.div; rw [if_pos hz]
      rw [this] at h
      cases h
      rw [ha.zero ((isZero_iff hx.ok).1 hz), zero_div]
      exact .inl ⟨0, rfl, by simp⟩
    rw [div_real hf (by simpa using hz)] at h
    cases h
    rw [← ha.toF64, ← hb.toF64, ← ExactFloat.val_div _ _ (by rw [hb.toF64]; exact h0)]
    exact .inr ⟨_, rfl, rfl⟩
  · rw [not_or] at hf
    obtain ⟨p, hp, rfl⟩ := ha.exact hf.1
    obtain ⟨q, hq, rfl⟩ := hb.exact hf.2
    exact .inl ⟨p / q, div_exact (by simp) hx hy hp hq (by exact_mod_cast h0) h, by push_cast; rfl⟩

end SmartNum
end SymRust
