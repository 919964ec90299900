import Verif.Proofs.Calculus
import Verif.Proofs.Factorial
import Mathlib.Analysis.Calculus.Taylor
import Mathlib.Analysis.Calculus.IteratedDeriv.Lemmas
/-! Taylor coefficients and remainder. -/

namespace SymRust
variable {F : Type}
open Expr Filter Topology

theorem denote_replace {ν : SmartNum F → Option ℝ} {e v : Expr F} (he : Tree e) {env : Env} {x : Variable} {p : ℝ}
    (hv : denote ν env v = some p) : denote ν env (e.replace x v) = denote ν (env.set x p) e := by
  induction he with
  | num n _ => simp
  | var y =>
    by_cases h : y = x
    · subst h; simp [hv]
    · simp [h, Env.set_ne _ _ h]
  | neg a _ i => rw [replace_neg, denote_neg', denote_neg', i]
  | sin a _ i => rw [replace_sin, denote_sin', denote_sin', i]
  | cos a _ i => rw [replace_cos, denote_cos', denote_cos', i]
  | exp a _ i => rw [replace_exp, denote_exp', denote_exp', i]
  | ln a _ i => rw [replace_ln, denote_ln', denote_ln', i]
  | add a b _ _ i j => rw [replace_add, denote_add', denote_add', i, j]
  | sub a b _ _ i j => rw [replace_sub, denote_sub', denote_sub', i, j]
  | mul a b _ _ i j => rw [replace_mul, denote_mul', denote_mul', i, j]
  | div a b _ _ i j => rw [replace_div, denote_div', denote_div', i, j]
  | pow a b _ _ i j => rw [replace_pow, denote_pow', denote_pow', i, j]

theorem Avoids.replace {ν : SmartNum F → Option ℝ} {a v : Expr F} (ha : Tree a) {x : Variable} {c : ℝ}
    (h : Avoids ν (AtPoint ν x v) a c) : Avoids ν Set.univ (a.replace x v) c := by
  obtain ⟨env', ⟨env, p, hp, rfl⟩, r, hr, hc⟩ := h
  exact ⟨env, trivial, r, by rw [denote_replace ha hp]; exact hr, hc⟩

theorem noLn_replace {a v : Expr F} (ha : Tree a) {x : Variable} (h : Everywhere NotLn a)
    (hv : Occurs x a → Everywhere NotLn v) : Everywhere NotLn (a.replace x v) := by
  induction ha with
  | num n _ => simpa using h
  | var y =>
    by_cases hy : y = x
    · subst hy; simpa using hv (by simp)
    · simpa [hy] using h
  | ln a _ i => exact absurd (everywhere_ln.1 h).1 (not_notLn a)
  | _ => 
    simp_all only [replace_neg, replace_sin, replace_cos, replace_exp, replace_add, replace_sub, replace_mul,
      replace_div, replace_pow, occurs_neg, occurs_sin, occurs_cos, occurs_exp, occurs_add, occurs_sub, occurs_mul,
      occurs_div, occurs_pow, everywhere_neg, everywhere_add, everywhere_sub, everywhere_mul,
      everywhere_div, everywhere_sin, everywhere_cos, everywhere_exp, everywhere_pow,
      notLn_neg, notLn_sin, notLn_cos, notLn_exp, notLn_add, notLn_sub, notLn_mul, notLn_div,
      notLn_pow, true_and, and_self, and_true, true_or, or_true, forall_const, forall_true_left, imp_self, implies_true]

/-- the substituted expression has no `ln` in a power base -/
def LnOK (x : Variable) (v : Expr F) (e : Expr F) : Prop := PowAll (fun a _ => Occurs x a → Everywhere NotLn v) e

theorem Safe.replace {ν : SmartNum F → Option ℝ} {e v : Expr F} (he : Tree e) {x : Variable}
    (h : Safe ν (AtPoint ν x v) e) (hv : Safe ν Set.univ v) (hl : LnOK x v e) :
    Safe ν Set.univ (e.replace x v) := by
  induction he with
  | num n _ => simpa using safe_ofNum n
  | var y =>
    by_cases hy : y = x
    · subst hy; simpa using hv
    · simpa [hy] using safe_ofVar y
  | cos a ha i =>
    rw [replace_cos]
    obtain ⟨h1, h2⟩ := safe_cos.1 h
    exact safe_cos.2 ⟨h1.replace ha, i h2 (powAll_cos.1 hl)⟩
  | pow a b ha hb i j =>
    rw [replace_pow]
    obtain ⟨⟨h1, h2, h3⟩, h4, h5⟩ := safe_pow.1 h
    obtain ⟨k1, k2, k3⟩ := powAll_pow.1 hl
    exact safe_pow.2 ⟨⟨h1.replace ha, h2.replace ha, noLn_replace ha h3 k1⟩, i h4 k2, j h5 k3⟩
  | neg a ha i => rw [replace_neg]; exact safe_neg.2 (i (safe_neg.1 h) (powAll_neg.1 hl))
  | sin a ha i => rw [replace_sin]; exact safe_sin.2 (i (safe_sin.1 h) (powAll_sin.1 hl))
  | exp a ha i => rw [replace_exp]; exact safe_exp.2 (i (safe_exp.1 h) (powAll_exp.1 hl))
  | ln a ha i => rw [replace_ln]; exact safe_ln.2 (i (safe_ln.1 h) (powAll_ln.1 hl))
  | add a b ha hb i j =>
    rw [replace_add]
    exact safe_add.2 ⟨i (safe_add.1 h).1 (powAll_add.1 hl).1, j (safe_add.1 h).2 (powAll_add.1 hl).2⟩
  | sub a b ha hb i j =>
    rw [replace_sub]
    exact safe_sub.2 ⟨i (safe_sub.1 h).1 (powAll_sub.1 hl).1, j (safe_sub.1 h).2 (powAll_sub.1 hl).2⟩
  | mul a b ha hb i j =>
    rw [replace_mul]
    exact safe_mul.2 ⟨i (safe_mul.1 h).1 (powAll_mul.1 hl).1, j (safe_mul.1 h).2 (powAll_mul.1 hl).2⟩
  | div a b ha hb i j =>
    rw [replace_div]
    exact safe_div.2 ⟨i (safe_div.1 h).1 (powAll_div.1 hl).1, j (safe_div.1 h).2 (powAll_div.1 hl).2⟩

/-! ### smoothness -/

section
variable {ν : SmartNum F → Option ℝ} {x : Variable}

theorem denote_smooth {e : Expr F} (he : Tree e) {env : Env} {r : ℝ} (hr : denote ν env e = some r)
    (hp : PowOK ν env x e) (n : WithTop ℕ∞) :
    ∃ g : ℝ → ℝ, (∀ᶠ t in 𝓝 (env x), denote ν (env.set x t) e = some (g t)) ∧ ContDiffAt ℝ n g (env x) ∧
      g (env x) = r := by
  have val : ∀ {e : Expr F} {r : ℝ} {g : ℝ → ℝ}, denote ν env e = some r →
      (∀ᶠ t in 𝓝 (env x), denote ν (env.set x t) e = some (g t)) → g (env x) = r := by
    intro e r g hr h
    have := h.self_of_nhds
    rw [Env.set_self, hr] at this
    exact (Option.some.inj this).symm
  have key : ∃ g : ℝ → ℝ, (∀ᶠ t in 𝓝 (env x), denote ν (env.set x t) e = some (g t)) ∧
      ContDiffAt ℝ n g (env x) := by
    induction he generalizing r with
    | num k _ => exact ⟨fun _ => r, .of_forall fun t => by rw [denote_ofNum] at *; exact hr, contDiffAt_const⟩
    | var y =>
      by_cases h : y = x
      · subst h; exact ⟨id, .of_forall fun t => by simp, contDiffAt_id⟩
      · exact ⟨fun _ => env y, .of_forall fun t => by simp [Env.set_ne _ _ h], contDiffAt_const⟩
    | neg a _ i =>
      obtain ⟨u, hu, rfl⟩ := denote_neg.1 hr
      obtain ⟨g, h1, h2⟩ := i hu (powAll_neg.1 hp)
      exact ⟨fun t => -g t, by filter_upwards [h1] with t ht using denote_neg.2 ⟨_, ht, rfl⟩, h2.neg⟩
    | sin a _ i =>
      obtain ⟨u, hu, rfl⟩ := denote_sin.1 hr
      obtain ⟨g, h1, h2⟩ := i hu (powAll_sin.1 hp)
      exact ⟨fun t => Real.sin (g t), by filter_upwards [h1] with t ht using denote_sin.2 ⟨_, ht, rfl⟩, h2.sin⟩
    | cos a _ i =>
      obtain ⟨u, hu, rfl⟩ := denote_cos.1 hr
      obtain ⟨g, h1, h2⟩ := i hu (powAll_cos.1 hp)
      exact ⟨fun t => Real.cos (g t), by filter_upwards [h1] with t ht using denote_cos.2 ⟨_, ht, rfl⟩, h2.cos⟩
    | exp a _ i =>
      obtain ⟨u, hu, rfl⟩ := denote_exp.1 hr
      obtain ⟨g, h1, h2⟩ := i hu (powAll_exp.1 hp)
      exact ⟨fun t => Real.exp (g t), by filter_upwards [h1] with t ht using denote_exp.2 ⟨_, ht, rfl⟩, h2.exp⟩
    | ln a _ i =>
      obtain ⟨u, hu, hu0, rfl⟩ := denote_ln.1 hr
      obtain ⟨g, h1, h2⟩ := i hu (powAll_ln.1 hp)
      have hg := val hu h1
      have hpos : ∀ᶠ t in 𝓝 (env x), 0 < g t := h2.continuousAt.tendsto.eventually_const_lt (by rw [hg]; exact hu0)
      exact ⟨fun t => Real.log (g t), by filter_upwards [h1, hpos] with t ht h0 using denote_ln.2 ⟨_, ht, h0, rfl⟩,
        h2.log (by rw [hg]; exact hu0.ne')⟩
    | add a b _ _ i j =>
      obtain ⟨u, v, hu, hv, rfl⟩ := denote_add.1 hr
      obtain ⟨g, h1, h2⟩ := i hu (powAll_add.1 hp).1
      obtain ⟨k, h3, h4⟩ := j hv (powAll_add.1 hp).2
      exact ⟨fun t => g t + k t, by filter_upwards [h1, h3] with t ht ht' using denote_add.2 ⟨_, _, ht, ht', rfl⟩,
        h2.add h4⟩
    | sub a b _ _ i j =>
      obtain ⟨u, v, hu, hv, rfl⟩ := denote_sub.1 hr
      obtain ⟨g, h1, h2⟩ := i hu (powAll_sub.1 hp).1
      obtain ⟨k, h3, h4⟩ := j hv (powAll_sub.1 hp).2
      exact ⟨fun t => g t - k t, by filter_upwards [h1, h3] with t ht ht' using denote_sub.2 ⟨_, _, ht, ht', rfl⟩,
        h2.sub h4⟩
    | mul a b _ _ i j =>
      obtain ⟨u, v, hu, hv, rfl⟩ := denote_mul.1 hr
      obtain ⟨g, h1, h2⟩ := i hu (powAll_mul.1 hp).1
      obtain ⟨k, h3, h4⟩ := j hv (powAll_mul.1 hp).2
      exact ⟨fun t => g t * k t, by filter_upwards [h1, h3] with t ht ht' using denote_mul.2 ⟨_, _, ht, ht', rfl⟩,
        h2.mul h4⟩
    | div a b _ _ i j =>
      obtain ⟨u, v, hu, hv, hv0, rfl⟩ := denote_div.1 hr
      obtain ⟨g, h1, h2⟩ := i hu (powAll_div.1 hp).1
      obtain ⟨k, h3, h4⟩ := j hv (powAll_div.1 hp).2
      have hk := val hv h3
      have hne : ∀ᶠ t in 𝓝 (env x), k t ≠ 0 := h4.continuousAt.eventually_ne (by rw [hk]; exact hv0)
      exact ⟨fun t => g t / k t,
        by filter_upwards [h1, h3, hne] with t ht ht' h0 using denote_div.2 ⟨_, _, ht, ht', h0, rfl⟩,
        h2.div h4 (by rw [hk]; exact hv0)⟩
    | pow a b ha hb i j =>
      obtain ⟨u, v, hu, hv, huv⟩ := denote_pow.1 hr
      obtain ⟨hq, hpa, hpb⟩ := powAll_pow.1 hp
      obtain ⟨g, h1, h2⟩ := i hu hpa
      obtain ⟨k, h3, h4⟩ := j hv hpb
      have hg := val hu h1
      obtain ⟨u', hu', hc⟩ := hq
      rw [hu] at hu'; cases hu'
      by_cases hpos : 0 < u
      · have hgp : ∀ᶠ t in 𝓝 (env x), 0 < g t := h2.continuousAt.tendsto.eventually_const_lt (by rw [hg]; exact hpos)
        exact ⟨fun t => g t ^ k t, by
          filter_upwards [h1, h3, hgp] with t ht ht' h0 using denote_pow.2 ⟨_, _, ht, ht', powValue_pos h0⟩,
          h2.rpow h4 (by rw [hg]; exact hpos.ne')⟩
      · have hn : u ≠ 0 ∧ ¬ Occurs x b := hc.resolve_left hpos
        have hneg : u < 0 := lt_of_le_of_ne (not_lt.1 hpos) hn.1
        obtain ⟨z, rfl⟩ := powValue_neg hneg huv
        have hgn : ∀ᶠ t in 𝓝 (env x), g t < 0 := h2.continuousAt.tendsto.eventually_lt_const (by rw [hg]; exact hneg)
        refine ⟨fun t => g t ^ (z : ℝ), ?_, h2.rpow contDiffAt_const (by rw [hg]; exact hneg.ne)⟩
        filter_upwards [h1, hgn] with t ht h0
        refine denote_pow.2 ⟨_, _, ht, by rw [denote_absent hb hn.2]; exact hv, ?_⟩
        rw [powValue_int h0, Real.rpow_intCast]
  obtain ⟨g, h1, h2⟩ := key
  exact ⟨g, h1, h2, val hr h1⟩

/-- The restriction on powers holds in a neighbourhood. -/
theorem powOK_open {e : Expr F} (he : Tree e) {env : Env} {r : ℝ} (hr : denote ν env e = some r)
    (hp : PowOK ν env x e) : ∀ᶠ t in 𝓝 (env x), PowOK ν (env.set x t) x e := by
  induction he generalizing r with
  | num k _ => exact .of_forall fun t => powAll_ofNum _
  | var y => exact .of_forall fun t => powAll_ofVar _
  | neg a _ i =>
    obtain ⟨u, hu, rfl⟩ := denote_neg.1 hr
    filter_upwards [i hu (powAll_neg.1 hp)] with t ht using powAll_neg.2 ht
  | sin a _ i =>
    obtain ⟨u, hu, rfl⟩ := denote_sin.1 hr
    filter_upwards [i hu (powAll_sin.1 hp)] with t ht using powAll_sin.2 ht
  | cos a _ i =>
    obtain ⟨u, hu, rfl⟩ := denote_cos.1 hr
    filter_upwards [i hu (powAll_cos.1 hp)] with t ht using powAll_cos.2 ht
  | exp a _ i =>
    obtain ⟨u, hu, rfl⟩ := denote_exp.1 hr
    filter_upwards [i hu (powAll_exp.1 hp)] with t ht using powAll_exp.2 ht
  | ln a _ i =>
    obtain ⟨u, hu, -, rfl⟩ := denote_ln.1 hr
    filter_upwards [i hu (powAll_ln.1 hp)] with t ht using powAll_ln.2 ht
  | add a b _ _ i j =>
    obtain ⟨u, v, hu, hv, rfl⟩ := denote_add.1 hr
    filter_upwards [i hu (powAll_add.1 hp).1, j hv (powAll_add.1 hp).2] with t ht ht' using powAll_add.2 ⟨ht, ht'⟩
  | sub a b _ _ i j =>
    obtain ⟨u, v, hu, hv, rfl⟩ := denote_sub.1 hr
    filter_upwards [i hu (powAll_sub.1 hp).1, j hv (powAll_sub.1 hp).2] with t ht ht' using powAll_sub.2 ⟨ht, ht'⟩
  | mul a b _ _ i j =>
    obtain ⟨u, v, hu, hv, rfl⟩ := denote_mul.1 hr
    filter_upwards [i hu (powAll_mul.1 hp).1, j hv (powAll_mul.1 hp).2] with t ht ht' using powAll_mul.2 ⟨ht, ht'⟩
  | div a b _ _ i j =>
    obtain ⟨u, v, hu, hv, -, rfl⟩ := denote_div.1 hr
    filter_upwards [i hu (powAll_div.1 hp).1, j hv (powAll_div.1 hp).2] with t ht ht' using powAll_div.2 ⟨ht, ht'⟩
  | pow a b ha hb i j =>
    obtain ⟨u, v, hu, hv, huv⟩ := denote_pow.1 hr
    obtain ⟨⟨u', hu', hc⟩, hpa, hpb⟩ := powAll_pow.1 hp
    rw [hu] at hu'; cases hu'
    obtain ⟨g, h1, h2, h3⟩ := denote_smooth ha hu hpa 1
    have hev : ∀ᶠ t in 𝓝 (env x), 0 < g t ∨ (g t ≠ 0 ∧ ¬ Occurs x b) := by
      rcases hc with hc | hc
      · filter_upwards [h2.continuousAt.tendsto.eventually_const_lt (by rw [h3]; exact hc)] with t ht using .inl ht
      · filter_upwards [h2.continuousAt.eventually_ne (by rw [h3]; exact hc.1)] with t ht using .inr ⟨ht, hc.2⟩
    filter_upwards [i hu hpa, j hv hpb, h1, hev] with t k1 k2 k3 k4
    exact powAll_pow.2 ⟨⟨g t, k3, k4⟩, k1, k2⟩

end

section
variable [ExactFloat F] {x : Variable}

theorem nthDerivative_succ {m : Mode} {e d' : Expr F} {k : Nat} (h : nthDerivative m e x (k + 1) = .ok d') :
    ∃ d, nthDerivative m e x k = .ok d ∧ d.derivative m x = .ok d' := by
  obtain ⟨d, h1, h2⟩ := Out.bind_eq_ok.1 h
  exact ⟨d, h1, h2⟩

/-- All restrictions survive iterated differentiation. -/
theorem nthDerivative_inv {e d : Expr F} (he : WF SmartNum.Valid e) {E : Set Env}
    (hE : SafeD SmartNum.value? E e) (k : Nat) (h : nthDerivative .strict e x k = .ok d) :
    WF SmartNum.Valid d ∧ SafeD SmartNum.value? E d ∧
    ∀ Q, PowInv Q → PowAll Q e → PowAll Q d := by
  induction k generalizing d with
  | zero => cases h; exact ⟨he, hE, fun _ _ h => h⟩
  | succ k ih =>
    obtain ⟨d', h1, h2⟩ := nthDerivative_succ h
    obtain ⟨i1, i2, i3⟩ := ih h1
    have hd := der_of_derivative i1.tree h2
    exact ⟨hd.wf (numClosed_valid .strict) i1, hd.safeD i1 i2, fun Q hQ hq => hd.powAll hQ i1 i2 (i3 Q hQ hq)⟩

theorem nthDerivative_value {e d : Expr F} (he : WF SmartNum.Valid e) {E : Set Env}
    (hE : SafeD SmartNum.value? E e) {env : Env} {r : ℝ} (hr : denote SmartNum.value? env e = some r)
    (hp : PowOK SmartNum.value? env x e) (k : Nat) (h : nthDerivative .strict e x k = .ok d) :
    ∀ᶠ t in 𝓝 (env x), denote SmartNum.value? (env.set x t) d =
      some (iteratedDeriv k (fn SmartNum.value? env x e) t) := by
  induction k generalizing d with
  | zero =>
    cases h
    obtain ⟨g, h1, -, -⟩ := denote_smooth he.tree hr hp 1
    filter_upwards [h1] with t ht
    rw [iteratedDeriv_zero, fn, ht]; rfl
  | succ k ih =>
    obtain ⟨d', h1, h2⟩ := nthDerivative_succ h
    obtain ⟨i1, i2, i3⟩ := nthDerivative_inv he hE k h1
    have hd := der_of_derivative i1.tree h2
    filter_upwards [eventually_eventually_nhds.2 (ih h1), powOK_open he.tree hr hp] with t ht hpt
    have hpd := i3 _ (powInv_powOK (env.set x t) x) hpt
    obtain ⟨y, hy, g, hg1, hg2⟩ := hd.hasDerivative i1 i2 ht.self_of_nhds hpd
    rw [hy, iteratedDeriv_succ]
    simp only [Env.set_same, Env.set_set] at hg1 hg2
    have heq : g =ᶠ[𝓝 t] iteratedDeriv k (fn SmartNum.value? env x e) := by
      filter_upwards [hg1, ht] with s hs hs'
      rw [hs] at hs'; exact Option.some.inj hs'
    rw [← heq.deriv_eq, hg2.deriv]

theorem powInv_ln (x : Variable) (v : Expr F) : PowInv (F := F) fun a _ => Occurs x a → Everywhere NotLn v := by
  intro a b a' b' _ ho _ h hx
  exact h (ho x hx)

theorem factorial_value {i : Nat} (h : i.factorial ≤ 9223372036854775807) (env : Env) :
    denote SmartNum.value? env (ofNum (SmartNum.ofI64 (Int64.ofNat i.factorial)) : Expr F) =
      some (i.factorial : ℝ) := by
  rw [denote_ofNum, SmartNum.value?_ofI64]
  have := toInt_ofInt_of_inI64 (z := ((i.factorial : Nat) : Int)) (by unfold InI64; omega)
  rw [show Int64.ofInt ((i.factorial : Nat) : Int) = Int64.ofNat i.factorial from rfl] at this
  rw [this]; simp

/-- The value of the `i`-th coefficient. -/
theorem taylor_coefficient {e v : Expr F} (he : WF SmartNum.Valid e) (hv : WF SmartNum.Valid v)
    (hsv : Safe SmartNum.value? Set.univ v) (hE : SafeD SmartNum.value? (AtPoint SmartNum.value? x v) e)
    (hl : LnOK x v e) {env : Env} {p r : ℝ} (hpt : denote SmartNum.value? env v = some p)
    (hr : denote SmartNum.value? (env.set x p) e = some r) (hp : PowOK SmartNum.value? (env.set x p) x e)
    {order : UInt64} {pe : PartialExpansion F} (h : e.taylorExpansion .strict x v order = .ok pe) {i : Nat}
    (hi : i ≤ order.toNat) : ∃ c, pe.coefficient[i]? = some c ∧
      denote SmartNum.value? env c = some (iteratedDeriv i (fn SmartNum.value? env x e) p / (i.factorial : ℝ)) := by
  rw [taylorExpansion_state] at h
  obtain ⟨s, h1, h⟩ := Out.bind_eq_ok.mp h
  cases h
  obtain ⟨-, -, -, -, hc⟩ := taylorState_spec _ (by have := order.toNat_lt; omega) h1
  obtain ⟨d, u, c, g1, g2, g3, g4, g5⟩ := hc i (by omega)
  refine ⟨c, g4, ?_⟩
  obtain ⟨i1, i2, i3⟩ := nthDerivative_inv he hE i g1
  have hval := (nthDerivative_value he hE hr hp i g1).self_of_nhds
  simp only [Env.set_same, Env.set_set] at hval
  have hfn : fn SmartNum.value? (env.set x p) x e = fn SmartNum.value? env x e := by
    funext t; simp [fn]
  rw [hfn] at hval
  rw [← denote_replace i1.tree hpt] at hval
  have hsr := i2.1.replace i1.tree hsv (i3 _ (powInv_ln x v) hl)
  have wr : WF SmartNum.Valid (d.replace x v) := WF.replace i1 hv x
  have a1 := agg_of_numAggregate wr.tree g2
  have v1 := agg_sound' a1 wr hsr env _ hval
  have wu := a1.wf (numClosed_valid .strict) wr
  have wd : WF SmartNum.Valid (u.div (ofNum (SmartNum.ofI64 (Int64.ofNat i.factorial)))) :=
    .div _ _ wu (.num _ (SmartNum.valid_ofI64 _))
  have a2 := agg_of_numAggregate wd.tree g3
  refine agg_sound' a2 wd (safe_div.2 ⟨a1.safe wr hsr, safe_ofNum _⟩) env _ (denote_div.2 ⟨_, _, v1,
    factorial_value (g5 (by simp)) env, ?_, rfl⟩)
  exact_mod_cast i.factorial_ne_zero

/-- The remainder. -/
theorem taylor_remainder {e : Expr F} (he : Tree e) {env : Env} {p r : ℝ}
    (hr : denote SmartNum.value? (env.set x p) e = some r) (hp : PowOK SmartNum.value? (env.set x p) x e) (n : Nat) :
    (fun t => fn SmartNum.value? env x e t -
      ∑ k ∈ Finset.range (n + 1), iteratedDeriv k (fn SmartNum.value? env x e) p / (k.factorial : ℝ) * (t - p) ^ k)
      =O[𝓝 p] fun t => (t - p) ^ (n + 1) := by
  set f := fn SmartNum.value? env x e with hf
  obtain ⟨g, h1, h2, -⟩ := denote_smooth he hr hp ((n + 1 : ℕ) : WithTop ℕ∞)
  simp only [Env.set_same, Env.set_set] at h1 h2
  have hfg : f =ᶠ[𝓝 p] g := by
    filter_upwards [h1] with t ht
    rw [hf, fn, ht]; rfl
  have hc : ContDiffAt ℝ ((n + 1 : ℕ) : WithTop ℕ∞) f p := h2.congr_of_eventuallyEq hfg
  obtain ⟨u, hu, hcu⟩ := hc.contDiffOn le_rfl (by simp)
  obtain ⟨ε, hε, hball⟩ := Metric.mem_nhds_iff.1 hu
  have hcb : ContDiffOn ℝ ((n + 1 : ℕ) : WithTop ℕ∞) f (Metric.ball p ε) := hcu.mono hball
  have hp' : p ∈ Metric.ball p ε := Metric.mem_ball_self hε
  have hT := taylor_isLittleO (convex_ball p ε) hp' hcb
  rw [IsOpen.nhdsWithin_eq Metric.isOpen_ball hp'] at hT
  have hB := hT.isBigO
  have hlast : (fun t : ℝ => iteratedDeriv (n + 1) f p / ((n + 1).factorial : ℝ) * (t - p) ^ (n + 1))
      =O[𝓝 p] fun t => (t - p) ^ (n + 1) := (Asymptotics.isBigO_refl _ _).const_mul_left _
  refine (hB.add hlast).congr_left fun t => ?_
  have hiter : ∀ k, iteratedDerivWithin k f (Metric.ball p ε) p = iteratedDeriv k f p := fun k =>
    iteratedDerivWithin_of_isOpen Metric.isOpen_ball hp'
  rw [taylor_within_apply, Finset.sum_range_succ _ (n + 1)]
  simp only [hiter, smul_eq_mul]
  have : ∀ k, ((k.factorial : ℝ)⁻¹ * (t - p) ^ k) * iteratedDeriv k f p =
      iteratedDeriv k f p / (k.factorial : ℝ) * (t - p) ^ k := fun k => by ring
  simp only [this]
  ring
end

end SymRust
