import Verif.Proofs.Modes
import Verif.Spec.Taylor
import Mathlib.Data.Nat.Factorial.Basic
/-! # The factorial computed by `taylor_expansion`, and the state after k steps -/

namespace SymRust
variable {F : Type} [FloatOps F]
open Expr

omit [FloatOps F] in
theorem ofI64_tag (a : Int64) : ((SmartNum.ofI64 a : SmartNum F).isOne = true ↔ a = 1) ∧
    ((SmartNum.ofI64 a : SmartNum F).isZero = true ↔ a = 0) := by
  unfold SmartNum.ofI64 SmartNum.ofVal SmartNumVal.ofI64 SmartNum.isOne SmartNum.isZero
  simp only [SmartNumVal.isOne, SmartNumVal.isZero]
  by_cases h1 : a = 1
  · subst h1; simp
  · by_cases h0 : a = 0
    · subst h0; simp
    · simp [h1, h0]

omit [FloatOps F] in
theorem wrapVal_integer (a : Int64) : (SmartNum.wrapVal (.integer a) : SmartNum F) = SmartNum.ofI64 a := by
  unfold SmartNum.wrapVal SmartNum.ofI64 SmartNum.ofVal SmartNumVal.ofI64
  by_cases h1 : a = 1
  · subst h1; rfl
  · by_cases h0 : a = 0
    · subst h0; rfl
    · simp [SmartNumVal.isZero, SmartNumVal.isOne, h0, h1]

theorem ofI64_mul {m : Mode} {a b : Int64} {z : SmartNum F}
    (h : (SmartNum.ofI64 a).mul m (SmartNum.ofI64 b) = .ok z) :
    z = SmartNum.ofI64 (a * b) ∧ (m ≠ .release → InI64 (a.toInt * b.toInt)) := by
  unfold SmartNum.mul at h
  by_cases h1 : a = 1
  · subst h1
    rw [if_pos ((ofI64_tag 1).1.mpr rfl)] at h; cases h
    refine ⟨by simp, fun _ => ?_⟩
    rw [show Int64.toInt 1 = 1 by decide, one_mul]; exact Int64.inI64_toInt b
  rw [if_neg (by rw [(ofI64_tag a).1]; exact h1)] at h
  by_cases h2 : b = 1
  · subst h2
    rw [if_pos ((ofI64_tag 1).1.mpr rfl)] at h; cases h
    refine ⟨by simp, fun _ => ?_⟩
    rw [show Int64.toInt 1 = 1 by decide, mul_one]; exact Int64.inI64_toInt a
  rw [if_neg (by rw [(ofI64_tag b).1]; exact h2)] at h
  obtain ⟨v, hv, h⟩ := Res.bind_eq_ok.mp h
  cases h
  change SmartNumVal.mul m (.integer a) (.integer b) = _ at hv
  unfold SmartNumVal.mul at hv
  by_cases h3 : (SmartNumVal.isZero (.integer a : SmartNumVal F) || SmartNumVal.isZero (.integer b : SmartNumVal F)) = true
  · rw [if_pos h3] at hv; cases hv
    have : a = 0 ∨ b = 0 := by simpa [SmartNumVal.isZero] using h3
    rw [wrapVal_integer]
    rcases this with rfl | rfl
    · refine ⟨by simp, fun _ => ?_⟩; rw [show Int64.toInt 0 = 0 by decide, zero_mul]; unfold InI64; omega
    · refine ⟨by simp, fun _ => ?_⟩; rw [show Int64.toInt 0 = 0 by decide, mul_zero]; unfold InI64; omega
  · rw [if_neg h3] at hv
    simp only at hv
    obtain ⟨c, hc, hv⟩ := Res.bind_eq_ok.mp hv
    cases hv
    rw [wrapVal_integer]
    refine ⟨?_, fun hm => ?_⟩
    · rw [(checked_ok hc)]
    · exact checked_ok_fits hm hc

omit [FloatOps F] in
theorem ofU64_eq {m : Mode} {v : UInt64} {z : SmartNum F} (h : SmartNum.ofU64 m v = .ok z) :
    z = SmartNum.ofI64 v.toInt64 := by
  unfold SmartNum.ofU64 SmartNumVal.ofU64 at h
  simp only [Res.bind_eq_ok] at h
  obtain ⟨w, ⟨i, hi, hw⟩, h⟩ := h
  cases hw; cases h
  have : i = v.toInt64 := by
    cases m <;> simp only [castI64] at hi
    · exact (Res.ok.inj hi).symm
    · exact (Res.ok.inj hi).symm
    · split_ifs at hi; exact (Res.ok.inj hi).symm
  rw [this]; rfl

theorem u64_ofNat_max {k : Nat} (hk : k < 2 ^ 64) : (max (UInt64.ofNat k) 1).toNat = max k 1 := by
  have h : (UInt64.ofNat k).toNat = k := by simp; omega
  rw [show max (UInt64.ofNat k) 1 = if UInt64.ofNat k ≤ 1 then 1 else UInt64.ofNat k from rfl]
  split_ifs with h'
  · rw [UInt64.le_iff_toNat_le, h] at h'
    change _ ≤ 1 at h'
    change 1 = _; omega
  · rw [UInt64.le_iff_toNat_le, h] at h'
    change ¬ _ ≤ 1 at h'
    omega

theorem u64_toInt64_eq (v : UInt64) : v.toInt64 = Int64.ofNat v.toNat := by
  have : UInt64.ofNat v.toNat = v := by simp
  conv_lhs => rw [← this]
  rfl

/-- What the state after `k` iterations is: `k` coefficients, the `k`-fold derivative, and `(k-1)!` modulo
2^64; the factorial has not wrapped unless in a release build. -/
theorem taylorState_spec {m : Mode} {e : Expr F} {x : Variable} {a : Expr F} (k : Nat) (hk : k ≤ 2 ^ 64)
    {s : List (Expr F) × Expr F × SmartNum F} (h : taylorState m e x a k = .ok s) :
    s.1.length = k ∧ nthDerivative m e x k = .ok s.2.1 ∧
    s.2.2 = SmartNum.ofI64 (Int64.ofNat (Nat.factorial (k - 1))) ∧
    (m ≠ .release → Nat.factorial (k - 1) ≤ 9223372036854775807) ∧
    (∀ i, i < k → ∃ d u c : Expr F, nthDerivative m e x i = .ok d ∧ (d.replace x a).numAggregate m = .ok u ∧
      (u.div (ofNum (SmartNum.ofI64 (Int64.ofNat i.factorial)))).numAggregate m = .ok c ∧ s.1[i]? = some c ∧
      (m ≠ .release → i.factorial ≤ 9223372036854775807)) := by
  induction k generalizing s with
  | zero => cases h; exact ⟨rfl, rfl, rfl, fun _ => by decide, fun i hi => absurd hi (by omega)⟩
  | succ k ih =>
    obtain ⟨s', h1, h⟩ := Out.bind_eq_ok.mp h
    obtain ⟨t, h2, h⟩ := Out.bind_eq_ok.mp h
    cases h
    obtain ⟨i1, i2, i3, i4, i5⟩ := ih (by omega) h1
    obtain ⟨kk, u, j1, j2, j3, j4, j5⟩ := taylorStep_ok h2
    have hkk := ofU64_eq j1
    rw [u64_toInt64_eq, u64_ofNat_max (by omega)] at hkk
    rw [i3, hkk] at j2
    obtain ⟨f1, f2⟩ := ofI64_mul j2
    have hfac : (k - 1).factorial * max k 1 = k.factorial := by
      cases k with
      | zero => rfl
      | succ k => rw [Nat.factorial_succ, Nat.mul_comm]; simp
    have f1' : t.2.2 = SmartNum.ofI64 (Int64.ofNat k.factorial) := by
      rw [f1, ← hfac, Int64.ofNat_mul]
    have f3 : m ≠ .release → k.factorial ≤ 9223372036854775807 := by
      intro hm
      have g1 := f2 hm
      have g2 := i4 hm
      have g3 : (Int64.ofNat (k - 1).factorial).toInt = ((k - 1).factorial : Int) := by
        have := toInt_ofInt_of_inI64 (z := ((k - 1).factorial : Int)) (by unfold InI64; omega)
        exact_mod_cast this
      have hpos := Nat.factorial_pos (k - 1)
      by_cases hk1 : (max k 1 : Nat) ≤ 9223372036854775807
      · have g4 : (Int64.ofNat (max k 1)).toInt = ((max k 1 : Nat) : Int) := by
          have := toInt_ofInt_of_inI64 (z := ((max k 1 : Nat) : Int)) (by unfold InI64; omega)
          exact_mod_cast this
        rw [g3, g4] at g1
        have g5 := g1.2
        rw [← hfac]; exact_mod_cast g5
      · exfalso
        have hle : 22 ≤ k - 1 := by omega
        have h22 : Nat.factorial 22 ≤ (k - 1).factorial := Nat.factorial_le hle
        have : (9223372036854775807 : Nat) < Nat.factorial 22 := by decide
        omega
    refine ⟨by simp [i1], ?_, f1', f3, ?_⟩
    · simp only [nthDerivative, i2]; exact j5
    · intro i hi
      by_cases hik : i < k
      · obtain ⟨d, u, c, g1, g2, g3, g4, g5⟩ := i5 i hik
        exact ⟨d, u, c, g1, g2, g3, by rw [List.getElem?_append_left (by omega)]; exact g4, g5⟩
      · obtain rfl : i = k := by omega
        exact ⟨s'.2.1, u, t.1, i2, j3, by rw [← f1']; exact j4, by
          rw [List.getElem?_append_right (by omega), i1]; simp, f3⟩

end SymRust
