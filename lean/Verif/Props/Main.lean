import Verif.Props.Semantics
import Verif.Props.Taylor
import Verif.Proofs.Kernel
import Mathlib.Analysis.SpecialFunctions.Log.Deriv
import Mathlib.Analysis.SpecialFunctions.ExpDeriv
import Mathlib.Analysis.Calculus.Deriv.ZPow
import Mathlib.Analysis.Calculus.IteratedDeriv.Defs
/-! # C49: the shipped program -/

namespace SymRust
open Expr
variable {F : Type} [FloatOps F]

/-- C49: in every build and for every float implementation, `main` does not panic and prints exactly this. -/
theorem C49_main (m : Mode) : SymRust.main F m = .ok
  ["Hello, world!",
   "Taylor expansion of expx: 1 * x ^ 0 + 1 * x ^ 1 + 1/2 * x ^ 2 + 1/6 * x ^ 3 + 1/24 * x ^ 4 + 1/120 * x ^ 5 + O(x ^ 6)",
   "Taylor expansion of lnx: 1 * (x - 1) ^ 1 + -1/2 * (x - 1) ^ 2 + 1/3 * (x - 1) ^ 3 + -1/4 * (x - 1) ^ 4 + 1/5 * (x - 1) ^ 5 + O((x - 1) ^ 6)"] := by
  cases m <;> krfl

/-- The fraction s·n/d as an expression. -/
def frac (s : Int64) (n d : UInt64) : Expr F := ofNum ⟨.rational ⟨s, n, d⟩, .nothing⟩

theorem denote_frac (env : Env) (s : Int64) (n d : UInt64) (hd : d.toNat ≠ 0) :
    denote SmartNum.exactReal env (frac s n d : Expr F) = some (s.toInt * n.toNat / d.toNat : ℝ) := by
  rw [frac, denote_ofNum]
  have hd' : ¬ d = 0 := by rintro rfl; exact hd rfl
  simp [SmartNum.exactReal, SmartNum.exact?, SmartNumVal.exact?, RationalNum.value, hd']

theorem iteratedDeriv_log_one (k : Nat) :
    iteratedDeriv (k + 1) Real.log 1 = (-1) ^ k * (k.factorial : ℝ) := by
  rw [iteratedDeriv_succ', Real.deriv_log', iteratedDeriv_eq_iterate, iter_deriv_inv']
  simp

/-- C49: the expansion of exp at 0 succeeds for every order up to 20 in every build, and its coefficients are
exactly the numbers exp⁽ᵏ⁾(0)/k! = 1/k!. -/
theorem C49_exp_coefficients (m : Mode) (n : UInt64) (hn : n ≤ 20) :
    ∃ t, (newVariable "x" : Expr F).exp.taylorExpansionExpr m (newVariable "x") zero n = .ok t ∧
      t.coefficient.length = n.toNat + 1 ∧
      ∀ k, k ≤ n.toNat → ∃ c, t.coefficient[k]? = some c ∧
        denote SmartNum.exactReal (fun _ => 0) c = some (iteratedDeriv k Real.exp 0 / (k.factorial : ℝ)) := by
  have key : (match (newVariable "x" : Expr F).exp.taylorExpansion m ⟨"x"⟩ zero 20 with
      | .ok t => some t.coefficient | _ => none) = some [one, one, frac 1 1 2, frac 1 1 6, frac 1 1 24,
        frac 1 1 120, frac 1 1 720, frac 1 1 5040, frac 1 1 40320, frac 1 1 362880, frac 1 1 3628800,
        frac 1 1 39916800, frac 1 1 479001600, frac 1 1 6227020800, frac 1 1 87178291200, frac 1 1 1307674368000,
        frac 1 1 20922789888000, frac 1 1 355687428096000, frac 1 1 6402373705728000, frac 1 1 121645100408832000,
        frac 1 1 2432902008176640000] := by
    cases m <;> krfl
  split at key
  next t ht =>
    injection key with key
    obtain ⟨t', h1, h2⟩ := C37_prefix m _ _ _ 20 n hn t ht
    refine ⟨t', h1, (C33_shape m _ _ _ _ _ h1).1, fun k hk => ?_⟩
    have hn' : n.toNat ≤ 20 := by simpa using UInt64.le_iff_toNat_le.mp hn
    rw [h2, key, List.getElem?_take_of_lt (by omega)]
    have : iteratedDeriv k Real.exp 0 = 1 := by
      have h := congrFun (iteratedDeriv_exp_const_mul k 1) 0
      simpa using h
    rw [this]
    have hk' : k ≤ 20 := hk.trans hn'
    interval_cases k <;> refine ⟨_, rfl, ?_⟩
    iterate 2
      rw [one, denote_int]; simp [show (1 : Int64).toInt = 1 by decide]
    all_goals
      rw [denote_frac _ _ _ _ (by decide)]
      simp [show (1 : Int64).toInt = 1 by decide, Nat.factorial]
      try norm_num
  all_goals cases key

/-- C49: the expansion of ln at 1 of order 5 succeeds in every build, and its coefficients are exactly the numbers
log⁽ᵏ⁾(1)/k!. -/
theorem C49_ln_coefficients (m : Mode) :
    ∃ t, (newVariable "x" : Expr F).ln.taylorExpansionExpr m (newVariable "x") one 5 = .ok t ∧
      t.coefficient.length = 6 ∧
      ∀ k, k ≤ 5 → ∃ c, t.coefficient[k]? = some c ∧
        denote SmartNum.exactReal (fun _ => 0) c = some (iteratedDeriv k Real.log 1 / (k.factorial : ℝ)) := by
  have key : (match (newVariable "x" : Expr F).ln.taylorExpansion m ⟨"x"⟩ one 5 with
      | .ok t => some t.coefficient | _ => none) = some [zero, one, frac (-1) 1 2, frac 1 1 3, frac (-1) 1 4,
        frac 1 1 5] := by
    cases m <;> krfl
  split at key
  next t ht =>
    injection key with key
    refine ⟨t, ht, by rw [key]; rfl, fun k hk => ?_⟩
    rw [key]
    cases k with
    | zero =>
      refine ⟨_, rfl, ?_⟩
      rw [zero, denote_int]; simp [show (0 : Int64).toInt = 0 by decide]
    | succ k =>
      rw [iteratedDeriv_log_one]
      have hk' : k ≤ 4 := by omega
      interval_cases k <;> refine ⟨_, rfl, ?_⟩
      · rw [one, denote_int]; simp [show (1 : Int64).toInt = 1 by decide]
      all_goals
        rw [denote_frac _ _ _ _ (by decide)]
        simp [show (1 : Int64).toInt = 1 by decide, show (-1 : Int64).toInt = -1 by decide, Nat.factorial]
        try norm_num
  all_goals cases key

end SymRust
