import Verif.Proofs.Factorial
import Verif.Proofs.AggConv
import Verif.Proofs.Kernel
/-! When `taylor_expansion` succeeds; expansions whose derivatives are periodic. -/

namespace SymRust
variable {F : Type} [FloatOps F]
open Expr

theorem ofI64_mul_ok {m : Mode} {a b : Int64} (h : m = .release ∨ InI64 (a.toInt * b.toInt)) :
    ∃ z, (SmartNum.ofI64 a : SmartNum F).mul m (SmartNum.ofI64 b) = .ok z := by
  unfold SmartNum.mul
  split
  · exact ⟨_, rfl⟩
  split
  · exact ⟨_, rfl⟩
  change ∃ z, (SmartNumVal.mul m (.integer a : SmartNumVal F) (.integer b) >>= fun v => .ok (SmartNum.wrapVal v)) = .ok z
  unfold SmartNumVal.mul
  split
  · exact ⟨_, rfl⟩
  simp only [i64Mul, checked]
  split
  · exact ⟨_, rfl⟩
  · rename_i hn
    rcases h with rfl | h
    · exact ⟨_, rfl⟩
    · exact absurd h hn

omit [FloatOps F] in
theorem ofU64_ok {m : Mode} {v : UInt64} (h : m ≠ .strict ∨ v.toNat ≤ 9223372036854775807) :
    ∃ z, (SmartNum.ofU64 m v : Res (SmartNum F)) = .ok z := by
  cases m with
  | debug => exact ⟨_, rfl⟩
  | release => exact ⟨_, rfl⟩
  | strict =>
    have h : v.toNat ≤ 9223372036854775807 := by simpa using h
    exact ⟨SmartNum.ofVal (.integer v.toInt64), by simp [SmartNum.ofU64, SmartNumVal.ofU64, castI64, h]⟩

theorem taylorState_total {m : Mode} {e : Expr F} {x : Variable} {a : Expr F} (k : Nat) (hk : k ≤ 2 ^ 64)
    (hm : m = .release ∨ k ≤ 21)
    (hd : ∀ i, i ≤ k → ∃ d, nthDerivative m e x i = .ok d)
    (h : ∀ i, i < k → ∃ d u c : Expr F, nthDerivative m e x i = .ok d ∧ (d.replace x a).numAggregate m = .ok u ∧
      (u.div (ofNum (SmartNum.ofI64 (Int64.ofNat i.factorial)))).numAggregate m = .ok c) :
    ∃ s, taylorState m e x a k = .ok s := by
  induction k with
  | zero => exact ⟨_, rfl⟩
  | succ k ih =>
    obtain ⟨s, hs⟩ := ih (by omega) (hm.imp_right (by omega)) (fun i hi => hd i (by omega)) fun i hi => h i (by omega)
    obtain ⟨-, h2, h3, -, -⟩ := taylorState_spec k (by omega) hs
    obtain ⟨d, u, c, g1, g2, g3⟩ := h k (by omega)
    rw [h2] at g1
    cases g1
    obtain ⟨d', hd'⟩ := hd (k + 1) le_rfl
    rw [nthDerivative, h2] at hd'
    change s.2.1.derivative m x = _ at hd'
    have hkn : (max (UInt64.ofNat k) 1).toNat = max k 1 := u64_ofNat_max (by omega)
    obtain ⟨kk, hkk⟩ := ofU64_ok (F := F) (m := m) (v := max (UInt64.ofNat k) 1) (by
      rcases hm with rfl | hm
      · exact .inl (by simp)
      · right; rw [hkn]; omega)
    have hkk' := ofU64_eq hkk
    rw [u64_toInt64_eq, hkn] at hkk'
    have hfac : (k - 1).factorial * max k 1 = k.factorial := by
      cases k with
      | zero => rfl
      | succ k => rw [Nat.factorial_succ, Nat.mul_comm]; simp
    obtain ⟨f, hf⟩ : ∃ f, s.2.2.mul m kk = .ok f := by
      rw [h3, hkk']
      refine ofI64_mul_ok (hm.imp_right fun hm => ?_)
      have e1 : k.factorial ≤ Nat.factorial 20 := Nat.factorial_le (by omega)
      have e2 : (k - 1).factorial ≤ Nat.factorial 20 := Nat.factorial_le (by omega)
      have e3 : Nat.factorial 20 ≤ (9223372036854775807 : Nat) := by decide
      have t1 := toInt_ofInt_of_inI64 (z := ((k - 1).factorial : Int)) (by unfold InI64; omega)
      have t2 := toInt_ofInt_of_inI64 (z := ((max k 1 : Nat) : Int)) (by unfold InI64; omega)
      have t1' : (Int64.ofNat (k - 1).factorial).toInt = ((k - 1).factorial : Int) := by exact_mod_cast t1
      have t2' : (Int64.ofNat (max k 1)).toInt = ((max k 1 : Nat) : Int) := by exact_mod_cast t2
      rw [t1', t2', ← Nat.cast_mul, hfac]
      unfold InI64; omega
    have hf' : f = SmartNum.ofI64 (Int64.ofNat k.factorial) := by
      rw [h3, hkk'] at hf
      rw [(ofI64_mul hf).1, ← hfac, Int64.ofNat_mul]
    refine ⟨(s.1 ++ [c], d', f), ?_⟩
    rw [taylorState, hs]
    simp only [Out.ok_bind]
    rw [taylorStep_eq, hkk]
    simp only [Res.lift_ok, Out.ok_bind]
    rw [hf]
    simp only [Res.lift_ok, Out.ok_bind]
    rw [g2]
    simp only [Res.lift_ok, Out.ok_bind]
    rw [hf', g3, hd']
    rfl

/-! ### the derivatives of sin, cos and exp of a variable -/

/-- `sin x`, `cos x`, `-sin x`, `-cos x`, and over again. -/
def sinCycle (x : Variable) (k : Nat) : Expr F :=
  match k % 4 with
  | 0 => (ofVar x).sin
  | 1 => (ofVar x).cos
  | 2 => (ofVar x).sin.neg
  | _ => (ofVar x).cos.neg

theorem derivative_sin_var (m : Mode) (x : Variable) :
    (ofVar x : Expr F).sin.derivative m x = .ok (ofVar x).cos := by
  rw [derivative_sin, derivative_ofVar, if_pos rfl]; rfl
theorem derivative_cos_var (m : Mode) (x : Variable) :
    (ofVar x : Expr F).cos.derivative m x = .ok (ofVar x).sin.neg := by
  rw [derivative_cos, derivative_ofVar, if_pos rfl]; rfl
theorem derivative_exp_var (m : Mode) (x : Variable) :
    (ofVar x : Expr F).exp.derivative m x = .ok (ofVar x).exp := by
  rw [derivative_exp, derivative_ofVar, if_pos rfl]; rfl

theorem mod4 (k : Nat) : (k % 4 = 0 ∧ (k + 1) % 4 = 1) ∨ (k % 4 = 1 ∧ (k + 1) % 4 = 2) ∨
    (k % 4 = 2 ∧ (k + 1) % 4 = 3) ∨ (k % 4 = 3 ∧ (k + 1) % 4 = 0) := by omega

theorem derivative_sinCycle (m : Mode) (x : Variable) (k : Nat) :
    (sinCycle x k : Expr F).derivative m x = .ok (sinCycle x (k + 1)) := by
  unfold sinCycle
  rcases mod4 k with ⟨h, h'⟩ | ⟨h, h'⟩ | ⟨h, h'⟩ | ⟨h, h'⟩ <;> rw [h, h']
  · exact derivative_sin_var m x
  · exact derivative_cos_var m x
  · show (ofVar x : Expr F).sin.neg.derivative m x = _
    rw [derivative_neg, derivative_sin_var]; rfl
  · show (ofVar x : Expr F).cos.neg.derivative m x = _
    rw [derivative_neg, derivative_cos_var]; rfl

theorem nthDerivative_sinCycle (m : Mode) (x : Variable) (j k : Nat) :
    nthDerivative m (sinCycle x j : Expr F) x k = .ok (sinCycle x (j + k)) := by
  induction k with
  | zero => rfl
  | succ k ih => rw [nthDerivative, ih]; exact derivative_sinCycle m x (j + k)

theorem nthDerivative_exp_var (m : Mode) (x : Variable) (k : Nat) :
    nthDerivative m (ofVar x : Expr F).exp x k = .ok (ofVar x).exp := by
  induction k with
  | zero => rfl
  | succ k ih => rw [nthDerivative, ih]; exact derivative_exp_var m x

/-- The value at 0: 0, 1, 0, -1, and over again. -/
def sinCycleAtZero (k : Nat) : Int64 :=
  match k % 4 with
  | 0 => 0
  | 1 => 1
  | 2 => 0
  | _ => -1

theorem sinCycle_zero (m : Mode) (x : Variable) (k : Nat) :
    ((sinCycle x k : Expr F).replace x (ofI64 0)).numAggregate m = .ok (ofI64 (sinCycleAtZero k)) := by
  unfold sinCycle sinCycleAtZero
  rcases mod4 k with ⟨h, -⟩ | ⟨h, -⟩ | ⟨h, -⟩ | ⟨h, -⟩ <;> rw [h] <;> simp only [replace_sin, replace_cos, replace_neg,
    replace_ofVar, if_true] <;> cases m <;> krfl

end SymRust
