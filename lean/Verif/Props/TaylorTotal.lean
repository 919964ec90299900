import Verif.Proofs.TaylorTotal
import Verif.Props.Main
import Mathlib.Analysis.SpecialFunctions.Trigonometric.Deriv
/-! # When expansions succeed; the expansions of sin, cos and exp (C33, C36, C57) -/

namespace SymRust
variable {F : Type} [FloatOps F]
open Expr

/-- C33: an expansion of order `n` (at most 20 in an overflow-checking build) succeeds exactly if the `n+1`
derivatives, the values of the first `n` of them at the point and their quotients by `k!` can be computed. -/
theorem C33_succeeds (m : Mode) (e a : Expr F) (x : Variable) (n : UInt64) (hm : m = .release ∨ n ≤ 20) :
    (∃ t, e.taylorExpansion m x a n = .ok t) ↔
    (∀ k, k ≤ n.toNat + 1 → ∃ d, nthDerivative m e x k = .ok d) ∧
    ∀ k, k ≤ n.toNat → ∃ d s v c : Expr F, nthDerivative m e x k = .ok d ∧ d.substitute x a = .ok s ∧
      s.numAggregate m = .ok v ∧ (v.div (ofI64 (Int64.ofNat k.factorial))).numAggregate m = .ok c := by
  constructor
  · rintro ⟨t, h⟩
    obtain ⟨-, -, -, -, h1, h2⟩ := C33_shape m e a x n t h
    refine ⟨fun k hk => ?_, fun k hk => ?_⟩
    · rcases Nat.lt_or_ge k (n.toNat + 1) with hk' | hk'
      · obtain ⟨d, -, -, -, g, -⟩ := h2 k (by omega); exact ⟨d, g⟩
      · obtain rfl : k = n.toNat + 1 := by omega
        exact ⟨_, h1⟩
    · obtain ⟨d, s, v, c, g1, g2, g3, g4, -⟩ := h2 k hk; exact ⟨d, s, v, c, g1, g2, g3, g4⟩
  · rintro ⟨h1, h2⟩
    obtain ⟨s, hs⟩ := taylorState_total (a := a) (n.toNat + 1) (u64_lt n) (hm.imp_right fun h => by
      have : n.toNat ≤ 20 := by simpa using UInt64.le_iff_toNat_le.mp h
      omega) h1 fun i hi => by
        obtain ⟨d, s, v, c, g1, g2, g3, g4⟩ := h2 i (by omega)
        rw [substitute_eq] at g2
        cases g2
        exact ⟨d, v, c, g1, g3, g4⟩
    exact ⟨_, by rw [taylorExpansion_state, hs]; rfl⟩

/-- C36: in a release build order 21 is accepted and the last coefficient is wrong: for exp at 0 it comes out
negative. -/
theorem C36_release_wrong : ∃ t, (newVariable "x" : Expr F).exp.taylorExpansion .release ⟨"x"⟩ (ofI64 0) 21 = .ok t ∧
    t.coefficient[21]? = some (frac (-1) 1 4249290049419214848) ∧
    denote SmartNum.exactReal (fun _ => 0) (frac (-1) 1 4249290049419214848 : Expr F) ≠
      some (iteratedDeriv 21 Real.exp 0 / (Nat.factorial 21 : ℝ)) := by
  have key : (match (newVariable "x" : Expr F).exp.taylorExpansion .release ⟨"x"⟩ (ofI64 0) 21 with
      | .ok t => t.coefficient[21]? | _ => none) = some (frac (-1) 1 4249290049419214848) := by krfl
  split at key
  · rename_i t ht
    refine ⟨t, ht, key, ?_⟩
    have : iteratedDeriv 21 Real.exp 0 = 1 := by
      have h := congrFun (iteratedDeriv_exp_const_mul 21 1) 0
      simpa using h
    rw [this, denote_frac _ _ _ _ (by decide)]
    intro h
    have h' := Option.some.inj h
    have h1 : (0 : ℝ) < 1 / (Nat.factorial 21 : ℝ) := by positivity
    rw [← h'] at h1
    rw [show ((-1 : Int64).toInt : ℝ) = -1 by norm_num [show (-1 : Int64).toInt = -1 by decide]] at h1
    norm_num [show (4249290049419214848 : UInt64).toNat = 4249290049419214848 by decide,
      show (1 : UInt64).toNat = 1 by decide] at h1
  · cases key

/-! ## C57 -/

/-- What dividing 1 or -1 by `k!` gives. -/
theorem unit_div_factorial (m : Mode) (k : Nat) (hk : k ≤ 20) (env : Env) :
    (∃ c : Expr F, ((ofI64 1 : Expr F).div (ofI64 (Int64.ofNat k.factorial))).numAggregate m = .ok c ∧
      denote SmartNum.exactReal env c = some (1 / (k.factorial : ℝ))) ∧
    (∃ c : Expr F, ((ofI64 (-1) : Expr F).div (ofI64 (Int64.ofNat k.factorial))).numAggregate m = .ok c ∧
      denote SmartNum.exactReal env c = some (-1 / (k.factorial : ℝ))) := by
  have h1 : ((ofI64 1 : Expr F).div (ofI64 (Int64.ofNat k.factorial))).numAggregate m =
      .ok (if k ≤ 1 then ofI64 1 else frac 1 1 (UInt64.ofNat k.factorial)) := by
    interval_cases k <;> cases m <;> krfl
  have h2 : ((ofI64 (-1) : Expr F).div (ofI64 (Int64.ofNat k.factorial))).numAggregate m =
      .ok (frac (-1) 1 (UInt64.ofNat k.factorial)) := by
    interval_cases k <;> cases m <;> krfl
  have hf : (UInt64.ofNat k.factorial).toNat = k.factorial := by
    have : k.factorial ≤ Nat.factorial 20 := Nat.factorial_le hk
    have : Nat.factorial 20 < 2 ^ 64 := by decide
    simp; omega
  have hf0 : (UInt64.ofNat k.factorial).toNat ≠ 0 := by rw [hf]; exact k.factorial_ne_zero
  refine ⟨⟨_, h1, ?_⟩, _, h2, ?_⟩
  · split
    · rw [denote_int]
      have : k.factorial = 1 := by interval_cases k <;> rfl
      simp [this, show (1 : Int64).toInt = 1 by decide]
    · rw [denote_frac _ _ _ _ hf0, hf]
      simp [show (1 : Int64).toInt = 1 by decide, show (1 : UInt64).toNat = 1 by decide]
  · rw [denote_frac _ _ _ _ hf0, hf]
    simp [show (-1 : Int64).toInt = -1 by decide, show (1 : UInt64).toNat = 1 by decide]

/-- Dividing the literal 0 by `k!` gives the literal 0. -/
theorem zero_div_factorial (m : Mode) (k : Nat) :
    ((ofI64 0 : Expr F).div (ofI64 (Int64.ofNat k.factorial))).numAggregate m = .ok (ofI64 0) := by
  rw [numAggregate_div, ofI64, ofI64, numAggregate_ofNum, numAggregate_ofNum]; rfl

/-- sin, cos, -sin, -cos, and over again. -/
noncomputable def sinCycleR (k : Nat) : ℝ → ℝ :=
  match k % 4 with
  | 0 => Real.sin
  | 1 => Real.cos
  | 2 => fun t => -Real.sin t
  | _ => fun t => -Real.cos t

theorem deriv_sinCycleR (k : Nat) : deriv (sinCycleR k) = sinCycleR (k + 1) := by
  unfold sinCycleR
  rcases mod4 k with ⟨h, h'⟩ | ⟨h, h'⟩ | ⟨h, h'⟩ | ⟨h, h'⟩ <;> rw [h, h']
  · exact Real.deriv_sin
  · exact Real.deriv_cos'
  · funext t; simp
  · funext t; simp

theorem iteratedDeriv_sinCycleR (j k : Nat) : iteratedDeriv k (sinCycleR j) = sinCycleR (j + k) := by
  induction k with
  | zero => simp
  | succ k ih => rw [iteratedDeriv_succ, ih, deriv_sinCycleR]; rfl

theorem sinCycleR_zero (k : Nat) : sinCycleR k 0 = ((sinCycleAtZero k).toInt : ℝ) := by
  unfold sinCycleR sinCycleAtZero
  rcases mod4 k with ⟨h, -⟩ | ⟨h, -⟩ | ⟨h, -⟩ | ⟨h, -⟩ <;> rw [h]
  · simp [show (0 : Int64).toInt = 0 by decide]
  · simp [show (1 : Int64).toInt = 1 by decide]
  · simp [show (0 : Int64).toInt = 0 by decide]
  · simp [show (-1 : Int64).toInt = -1 by decide]

theorem cycle_coefficient (m : Mode) (j k : Nat) (hk : k ≤ 20) (env : Env) :
    ∃ c : Expr F, ((ofI64 (sinCycleAtZero j)).div (ofI64 (Int64.ofNat k.factorial))).numAggregate m = .ok c ∧
      denote SmartNum.exactReal env c = some (sinCycleR j 0 / (k.factorial : ℝ)) := by
  obtain ⟨h1, h2⟩ := unit_div_factorial (F := F) m k hk env
  rw [sinCycleR_zero]
  unfold sinCycleAtZero
  have h0 : ∃ c : Expr F, ((ofI64 0).div (ofI64 (Int64.ofNat k.factorial))).numAggregate m = .ok c ∧
      denote SmartNum.exactReal env c = some (((0 : Int64).toInt : ℝ) / (k.factorial : ℝ)) :=
    ⟨_, zero_div_factorial m k, by rw [denote_int]; simp [show (0 : Int64).toInt = 0 by decide]⟩
  rcases mod4 j with ⟨h, -⟩ | ⟨h, -⟩ | ⟨h, -⟩ | ⟨h, -⟩ <;> rw [h]
  · exact h0
  · simpa [show (1 : Int64).toInt = 1 by decide] using h1
  · exact h0
  · simpa [show (-1 : Int64).toInt = -1 by decide] using h2

theorem cycle_expansion (m : Mode) (x : Variable) (j : Nat) (n : UInt64) (hn : n ≤ 20) (env : Env) :
    ∃ t, (sinCycle x j : Expr F).taylorExpansion m x (ofI64 0) n = .ok t ∧
      t.residual = sinCycle x (j + (n.toNat + 1)) ∧
      ∀ k, k ≤ n.toNat → ∃ c, t.coefficient[k]? = some c ∧
        denote SmartNum.exactReal env c = some (iteratedDeriv k (sinCycleR j) 0 / (k.factorial : ℝ)) := by
  have hn' : n.toNat ≤ 20 := by simpa using UInt64.le_iff_toNat_le.mp hn
  obtain ⟨t, ht⟩ := (C33_succeeds m (sinCycle x j : Expr F) (ofI64 0) x n (.inr hn)).2
    ⟨fun k _ => ⟨_, nthDerivative_sinCycle m x j k⟩, fun k hk => by
      obtain ⟨c, hc, -⟩ := cycle_coefficient (F := F) m (j + k) k (by omega) env
      exact ⟨_, _, _, c, nthDerivative_sinCycle m x j k, substitute_eq _ _ _, sinCycle_zero m x (j + k), hc⟩⟩
  obtain ⟨-, -, -, -, h1, h2⟩ := C33_shape m _ _ _ _ _ ht
  rw [nthDerivative_sinCycle] at h1
  refine ⟨t, ht, (Out.ok.inj h1).symm, fun k hk => ?_⟩
  obtain ⟨d, s, v, c, g1, g2, g3, g4, g5, -⟩ := h2 k hk
  rw [nthDerivative_sinCycle] at g1
  obtain rfl := Out.ok.inj g1
  rw [substitute_eq] at g2
  cases g2
  rw [sinCycle_zero] at g3
  cases g3
  obtain ⟨c', hc, hv⟩ := cycle_coefficient (F := F) m (j + k) k (by omega) env
  rw [g4] at hc
  cases hc
  exact ⟨c, g5, by rw [iteratedDeriv_sinCycleR]; exact hv⟩

/-- C57: in every build, for every variable and every order up to 20, the expansion of `sin x` at 0 succeeds and
coefficient `k` has exactly the value sin⁽ᵏ⁾(0)/k!. -/
theorem C57_sin (m : Mode) (x : Variable) (n : UInt64) (hn : n ≤ 20) (env : Env) :
    ∃ t, (ofVar x : Expr F).sin.taylorExpansion m x (ofI64 0) n = .ok t ∧
      ∀ k, k ≤ n.toNat → ∃ c, t.coefficient[k]? = some c ∧
        denote SmartNum.exactReal env c = some (iteratedDeriv k Real.sin 0 / (k.factorial : ℝ)) := by
  obtain ⟨t, h1, -, h2⟩ := cycle_expansion (F := F) m x 0 n hn env
  exact ⟨t, h1, h2⟩

/-- C57: the same for cos. -/
theorem C57_cos (m : Mode) (x : Variable) (n : UInt64) (hn : n ≤ 20) (env : Env) :
    ∃ t, (ofVar x : Expr F).cos.taylorExpansion m x (ofI64 0) n = .ok t ∧
      ∀ k, k ≤ n.toNat → ∃ c, t.coefficient[k]? = some c ∧
        denote SmartNum.exactReal env c = some (iteratedDeriv k Real.cos 0 / (k.factorial : ℝ)) := by
  obtain ⟨t, h1, -, h2⟩ := cycle_expansion (F := F) m x 1 n hn env
  exact ⟨t, h1, h2⟩

/-- C57: the same for exp. -/
theorem C57_exp (m : Mode) (x : Variable) (n : UInt64) (hn : n ≤ 20) (env : Env) :
    ∃ t, (ofVar x : Expr F).exp.taylorExpansion m x (ofI64 0) n = .ok t ∧
      ∀ k, k ≤ n.toNat → ∃ c, t.coefficient[k]? = some c ∧
        denote SmartNum.exactReal env c = some (iteratedDeriv k Real.exp 0 / (k.factorial : ℝ)) := by
  have hn' : n.toNat ≤ 20 := by simpa using UInt64.le_iff_toNat_le.mp hn
  have hz : ((ofVar x : Expr F).exp.replace x (ofI64 0)).numAggregate m = .ok (ofI64 1) := by
    simp only [replace_exp, replace_ofVar, if_true]; cases m <;> krfl
  obtain ⟨t, ht⟩ := (C33_succeeds m (ofVar x : Expr F).exp (ofI64 0) x n (.inr hn)).2
    ⟨fun k _ => ⟨_, nthDerivative_exp_var m x k⟩, fun k hk => by
      obtain ⟨⟨c, hc, -⟩, -⟩ := unit_div_factorial (F := F) m k (by omega) env
      exact ⟨_, _, _, c, nthDerivative_exp_var m x k, substitute_eq _ _ _, hz, hc⟩⟩
  obtain ⟨-, -, -, -, -, h2⟩ := C33_shape m _ _ _ _ _ ht
  refine ⟨t, ht, fun k hk => ?_⟩
  obtain ⟨d, s, v, c, g1, g2, g3, g4, g5, -⟩ := h2 k hk
  rw [nthDerivative_exp_var] at g1
  cases g1
  rw [substitute_eq] at g2
  cases g2
  rw [hz] at g3
  cases g3
  obtain ⟨⟨c', hc, hv⟩, -⟩ := unit_div_factorial (F := F) m k (by omega) env
  rw [g4] at hc
  cases hc
  have : iteratedDeriv k Real.exp 0 = 1 := by
    have h := congrFun (iteratedDeriv_exp_const_mul k 1) 0
    simpa using h
  exact ⟨c, g5, by rw [this]; exact hv⟩

/-- C57: in every build every derivative of `sin x` of every order is one of sin x, cos x, -sin x, -cos x (as
expressions, without any clutter), cyclically. -/
theorem C57_derivatives (m : Mode) (x : Variable) (k : Nat) :
    nthDerivative m (ofVar x : Expr F).sin x (4 * k) = .ok (ofVar x).sin ∧
    nthDerivative m (ofVar x : Expr F).sin x (4 * k + 1) = .ok (ofVar x).cos ∧
    nthDerivative m (ofVar x : Expr F).sin x (4 * k + 2) = .ok (ofVar x).sin.neg ∧
    nthDerivative m (ofVar x : Expr F).sin x (4 * k + 3) = .ok (ofVar x).cos.neg ∧
    nthDerivative m (ofVar x : Expr F).exp x k = .ok (ofVar x).exp := by
  have h := nthDerivative_sinCycle (F := F) m x 0
  refine ⟨?_, ?_, ?_, ?_, nthDerivative_exp_var m x k⟩
  · have := h (4 * k); rwa [show sinCycle x (0 + 4 * k) = (ofVar x : Expr F).sin by
      unfold sinCycle; rw [show (0 + 4 * k) % 4 = 0 by omega]; rfl] at this
  · have := h (4 * k + 1); rwa [show sinCycle x (0 + (4 * k + 1)) = (ofVar x : Expr F).cos by
      unfold sinCycle; rw [show (0 + (4 * k + 1)) % 4 = 1 by omega]; rfl] at this
  · have := h (4 * k + 2); rwa [show sinCycle x (0 + (4 * k + 2)) = (ofVar x : Expr F).sin.neg by
      unfold sinCycle; rw [show (0 + (4 * k + 2)) % 4 = 2 by omega]; rfl] at this
  · have := h (4 * k + 3); rwa [show sinCycle x (0 + (4 * k + 3)) = (ofVar x : Expr F).cos.neg by
      unfold sinCycle; rw [show (0 + (4 * k + 3)) % 4 = 3 by omega]; rfl] at this

end SymRust
