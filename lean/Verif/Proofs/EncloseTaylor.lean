import Verif.Proofs.EncloseAgg
import Verif.Proofs.TaylorSem
/-! Enclosures under substitution; the exact iterated derivative. -/

namespace SymRust
variable {F : Type}
open Expr Filter Topology

/-! ### the exact iterated derivative -/

section
variable {ν : SmartNum F → Option ℝ} {x : Variable} {env : Env} {e : Expr F} {r v : ℝ}

theorem textbookN_succ (e : Expr F) (k : Nat) : (e.textbook x).textbookN x k = e.textbookN x (k + 1) := by
  induction k with
  | zero => rfl
  | succ k i => show textbook x _ = textbook x _; rw [i]

theorem Rounding.PS.chain (he : Rounding.PS e) {k : Nat} (hv : denote ν env (e.textbookN x k) = some v) :
    ∃ w, denote ν env e = some w := by
  induction k generalizing v e with
  | zero => exact ⟨v, hv⟩
  | succ k i =>
    rw [← textbookN_succ] at hv
    obtain ⟨w, hw⟩ := i (he.textbook x) hv
    exact he.defined hw

/-- Where `e` and its `k`-th derivative are defined, so is the first. -/
theorem textbook_chain (h0 : ν (.ofI64 0) = some 0) (h1 : ν (.ofI64 1) = some 1) (he : Tree e) {k : Nat}
    (hr : denote ν env e = some r) (hv : denote ν env (e.textbookN x (k + 1)) = some v) :
    ∃ w, denote ν env (e.textbook x) = some w := by
  have key : Rounding.PS (e.textbook x) → ∃ w, denote ν env (e.textbook x) = some w := fun hp => by
    rw [← textbookN_succ] at hv
    exact hp.chain hv
  have neg : ∀ (a : Expr F) k, a.neg.textbookN x k = (a.textbookN x k).neg := fun a k => by
    induction k with
    | zero => rfl
    | succ k i => rw [textbookN, i, textbook_neg]; rfl
  have add : ∀ (a b : Expr F) k, (a.add b).textbookN x k = (a.textbookN x k).add (b.textbookN x k) := fun a b k => by
    induction k with
    | zero => rfl
    | succ k i => rw [textbookN, i, textbook_add]; rfl
  have sub : ∀ (a b : Expr F) k, (a.sub b).textbookN x k = (a.textbookN x k).sub (b.textbookN x k) := fun a b k => by
    induction k with
    | zero => rfl
    | succ k i => rw [textbookN, i, textbook_sub]; rfl
  induction he generalizing r v with
  | num n _ => rw [textbook_ofNum]; exact ⟨0, by rw [Expr.ofI64, denote_ofNum, h0]⟩
  | var y =>
    by_cases h : x = y
    · subst h; rw [textbook_same]; exact ⟨1, by rw [Expr.ofI64, denote_ofNum, h1]⟩
    · rw [textbook_other _ h]; exact ⟨0, by rw [Expr.ofI64, denote_ofNum, h0]⟩
  | neg a _ i =>
    obtain ⟨u, hu, rfl⟩ := denote_neg.1 hr
    rw [neg] at hv
    obtain ⟨v, hv1, rfl⟩ := denote_neg.1 hv
    obtain ⟨w, hw⟩ := i hu hv1 fun hp => by rw [← textbookN_succ] at hv1; exact hp.chain hv1
    rw [textbook_neg]; exact ⟨_, denote_neg.2 ⟨_, hw, rfl⟩⟩
  | add a b _ _ i j =>
    obtain ⟨u, u', hu, hu', rfl⟩ := denote_add.1 hr
    rw [add] at hv
    obtain ⟨v, v', hv1, hv2, rfl⟩ := denote_add.1 hv
    obtain ⟨w, hw⟩ := i hu hv1 fun hp => by rw [← textbookN_succ] at hv1; exact hp.chain hv1
    obtain ⟨w', hw'⟩ := j hu' hv2 fun hp => by rw [← textbookN_succ] at hv2; exact hp.chain hv2
    rw [textbook_add]; exact ⟨_, denote_add.2 ⟨_, _, hw, hw', rfl⟩⟩
  | sub a b _ _ i j =>
    obtain ⟨u, u', hu, hu', rfl⟩ := denote_sub.1 hr
    rw [sub] at hv
    obtain ⟨v, v', hv1, hv2, rfl⟩ := denote_sub.1 hv
    obtain ⟨w, hw⟩ := i hu hv1 fun hp => by rw [← textbookN_succ] at hv1; exact hp.chain hv1
    obtain ⟨w', hw'⟩ := j hu' hv2 fun hp => by rw [← textbookN_succ] at hv2; exact hp.chain hv2
    rw [textbook_sub]; exact ⟨_, denote_sub.2 ⟨_, _, hw, hw', rfl⟩⟩
  | mul a b _ _ _ _ => exact key (by rw [textbook_mul]; exact .add (.mul _ _) (.mul _ _))
  | div a b _ _ _ _ => exact key (by rw [textbook_div]; exact .div _ _)
  | sin a _ _ => exact key (by rw [textbook_sin]; exact .mul _ _)
  | cos a _ _ => exact key (by rw [textbook_cos]; exact .mul _ _)
  | exp a _ _ => exact key (by rw [textbook_exp]; exact .mul _ _)
  | ln a _ _ => exact key (by rw [textbook_ln]; exact .div _ _)
  | pow a b _ _ _ _ =>
    refine key ?_
    by_cases hx : Occurs x b
    · rw [textbook_pow _ _ _ hx]; exact .mul _ _
    · rw [textbook_pow_const _ _ _ hx]; exact .mul _ _

theorem textbookN_tree (he : Tree e) (k : Nat) : Tree (e.textbookN x k) := by
  induction k with
  | zero => exact he
  | succ k i => exact textbook_wf trivial trivial i

theorem textbook_all (h0 : ν (.ofI64 0) = some 0) (h1 : ν (.ofI64 1) = some 1) (he : Tree e) {k : Nat}
    (hr : denote ν env e = some r) (hv : denote ν env (e.textbookN x k) = some v) :
    ∀ j ≤ k, ∃ w, denote ν env (e.textbookN x j) = some w := by
  intro j
  induction j with
  | zero => exact fun _ => ⟨r, hr⟩
  | succ j i =>
    intro hj
    obtain ⟨w, hw⟩ := i (by omega)
    have hk : ∃ l, k = j + (l + 1) := ⟨k - j - 1, by omega⟩
    obtain ⟨l, rfl⟩ := hk
    have add : ∀ (e : Expr F) j l, e.textbookN x (j + l) = (e.textbookN x j).textbookN x l := fun e j l => by
      induction l with
      | zero => rfl
      | succ l i => rw [← Nat.add_assoc]; show textbook x _ = textbook x _; rw [i]
    rw [add] at hv
    exact textbook_chain h0 h1 (textbookN_tree he j) hw hv

/-- The `k`-th derivative by the textbook rules is the iterated derivative. -/
theorem textbook_iterated (h0 : ν (.ofI64 0) = some 0) (h1 : ν (.ofI64 1) = some 1) (he : Tree e) {k : Nat}
    (hr : denote ν env e = some r) (hv : denote ν env (e.textbookN x k) = some v) :
    iteratedDeriv k (fn ν env x e) (env x) = v ∧
      ∀ j < k, DifferentiableAt ℝ (iteratedDeriv j (fn ν env x e)) (env x) := by
  have all := textbook_all h0 h1 he hr hv
  have near : ∀ j, j < k → ∀ᶠ t in 𝓝 (env x), ∃ w, denote ν (env.set x t) (e.textbookN x j) = some w := by
    intro j hj
    obtain ⟨w, hw⟩ := all j hj.le
    obtain ⟨w', hw'⟩ := all (j + 1) hj
    obtain ⟨g, hg, -⟩ := textbook_hasDerivative h0 h1 (textbookN_tree he j) hw hw'
    filter_upwards [hg] with t ht using ⟨_, ht⟩
  -- one step, at a point where everything is defined
  have step : ∀ (j : Nat) (t w : ℝ),
      (∀ᶠ s in 𝓝 t, denote ν (env.set x s) (e.textbookN x j) = some (iteratedDeriv j (fn ν env x e) s)) →
      denote ν (env.set x t) (e.textbookN x (j + 1)) = some w → iteratedDeriv (j + 1) (fn ν env x e) t = w ∧
      DifferentiableAt ℝ (iteratedDeriv j (fn ν env x e)) t := by
    intro j t w hj hw
    obtain ⟨g, hg1, hg2⟩ := textbook_hasDerivative h0 h1 (textbookN_tree he j) hj.self_of_nhds hw
    simp only [Env.set_same, Env.set_set] at hg1 hg2
    have heq : g =ᶠ[𝓝 t] iteratedDeriv j (fn ν env x e) := by
      filter_upwards [hg1, hj] with s hs hs'
      rw [hs] at hs'; exact Option.some.inj hs'
    exact ⟨by rw [iteratedDeriv_succ, ← heq.deriv_eq, hg2.deriv],
      (hg2.congr_of_eventuallyEq heq.symm).differentiableAt⟩
  have ev : ∀ j, j < k → ∀ᶠ t in 𝓝 (env x), denote ν (env.set x t) (e.textbookN x j) =
      some (iteratedDeriv j (fn ν env x e) t) := by
    intro j
    induction j with
    | zero =>
      intro hj
      filter_upwards [near 0 hj] with t ht
      obtain ⟨w, hw⟩ := ht
      show denote ν (env.set x t) e = _
      have hw : denote ν (env.set x t) e = some w := hw
      rw [iteratedDeriv_zero, fn, hw]; rfl
    | succ j i =>
      intro hj
      filter_upwards [eventually_eventually_nhds.2 (i (by omega)), near (j + 1) hj] with t ht hn
      obtain ⟨w, hw⟩ := hn
      rw [(step j t w ht hw).1, hw]
  cases k with
  | zero =>
    have : denote ν env e = some v := hv
    exact ⟨by rw [iteratedDeriv_zero, fn, Env.set_self, this]; rfl, fun j hj => absurd hj (by omega)⟩
  | succ k =>
    refine ⟨(step k (env x) v (ev k (by omega)) (by simpa using hv)).1, fun j hj => ?_⟩
    obtain ⟨w, hw⟩ := all (j + 1) hj
    exact (step j (env x) w (ev j hj) (by simpa using hw)).2

end

/-! ### enclosures under substitution -/

variable [FloatOps F] {R : Rounding F} {x : Variable} {V : Ranges} {e v : Expr F} {S T : Set ℝ}

namespace Rounding

theorem ranges_set_same : V.set x T x = T := by simp [Ranges.set]
theorem ranges_set_ne {y : Variable} (h : y ≠ x) : V.set x T y = V y := by simp [Ranges.set, h]

theorem Cov.replace (he : Tree e) (hc : R.Cov (V.set x T) e S) (hv : R.Cov V v T) : R.Cov V (e.replace x v) S := by
  induction he generalizing S with
  | num n _ => simpa [cov_num] using cov_num.1 hc
  | var y =>
    have := cov_var.1 hc
    by_cases h : y = x
    · subst h
      rw [ranges_set_same] at this
      simpa using hv.mono this
    · rw [ranges_set_ne h] at this
      simpa [h] using cov_var.2 this
  | neg a _ i => rw [replace_neg]; obtain ⟨S₁, w, hb⟩ := cov_neg.1 hc; exact cov_neg.2 ⟨S₁, i w, hb⟩
  | sin a _ i => rw [replace_sin]; obtain ⟨S₁, w, hb⟩ := cov_sin.1 hc; exact cov_sin.2 ⟨S₁, i w, hb⟩
  | cos a _ i => rw [replace_cos]; obtain ⟨S₁, w, hb⟩ := cov_cos.1 hc; exact cov_cos.2 ⟨S₁, i w, hb⟩
  | exp a _ i => rw [replace_exp]; obtain ⟨S₁, w, hb⟩ := cov_exp.1 hc; exact cov_exp.2 ⟨S₁, i w, hb⟩
  | ln a _ i => rw [replace_ln]; obtain ⟨S₁, w, hb⟩ := cov_ln.1 hc; exact cov_ln.2 ⟨S₁, i w, hb⟩
  | add a b _ _ i j =>
    rw [replace_add]; obtain ⟨S₁, S₂, w, w', hb⟩ := cov_add.1 hc; exact cov_add.2 ⟨S₁, S₂, i w, j w', hb⟩
  | sub a b _ _ i j =>
    rw [replace_sub]; obtain ⟨S₁, S₂, w, w', hb⟩ := cov_sub.1 hc; exact cov_sub.2 ⟨S₁, S₂, i w, j w', hb⟩
  | mul a b _ _ i j =>
    rw [replace_mul]; obtain ⟨S₁, S₂, w, w', hb⟩ := cov_mul.1 hc; exact cov_mul.2 ⟨S₁, S₂, i w, j w', hb⟩
  | div a b _ _ i j =>
    rw [replace_div]; obtain ⟨S₁, S₂, w, w', hb⟩ := cov_div.1 hc; exact cov_div.2 ⟨S₁, S₂, i w, j w', hb⟩
  | pow a b _ _ i j =>
    rw [replace_pow]; obtain ⟨S₁, S₂, w, w', hb⟩ := cov_pow.1 hc; exact cov_pow.2 ⟨S₁, S₂, i w, j w', hb⟩

/-- The ranges in which `x` is in an enclosure of `v`. -/
def AtC (R : Rounding F) (x : Variable) (v : Expr F) : Set Ranges :=
  {V' | ∃ V T, V.envs.Nonempty ∧ R.Cov V v T ∧ V' = V.set x T}

theorem DiffC.replace {c : ℝ} (he : Tree e) (h : R.DiffC (R.AtC x v) e c) : R.DiffC Set.univ (e.replace x v) c := by
  obtain ⟨-, ⟨V, T, h1, h2, rfl⟩, -, S, h3, h4⟩ := h
  exact ⟨V, trivial, h1, S, h3.replace he h2, h4⟩

theorem ClearC.replace (he : Tree e) (h : R.ClearC (R.AtC x v) e) (hv : R.ClearC Set.univ v) (hl : LnOK x v e) :
    R.ClearC Set.univ (e.replace x v) := by
  induction he with
  | num n _ => simpa using clearC_ofNum n
  | var y =>
    by_cases hy : y = x
    · subst hy; simpa using hv
    · simpa [hy] using clearC_ofVar y
  | cos a ha i =>
    rw [replace_cos]
    obtain ⟨h1, h2⟩ := clearC_cos.1 h
    exact clearC_cos.2 ⟨h1.replace ha, i h2 (powAll_cos.1 hl)⟩
  | sin a ha i =>
    rw [replace_sin]
    obtain ⟨h1, h2⟩ := clearC_sin.1 h
    exact clearC_sin.2 ⟨h1.replace ha, i h2 (powAll_sin.1 hl)⟩
  | pow a b ha hb i j =>
    rw [replace_pow]
    obtain ⟨⟨h1, h2, h3⟩, h4, h5⟩ := clearC_pow.1 h
    obtain ⟨k1, k2, k3⟩ := powAll_pow.1 hl
    exact clearC_pow.2 ⟨⟨h1.replace ha, h2.replace ha, noLn_replace ha h3 k1⟩, i h4 k2, j h5 k3⟩
  | neg a ha i => rw [replace_neg]; exact clearC_neg.2 (i (clearC_neg.1 h) (powAll_neg.1 hl))
  | exp a ha i => rw [replace_exp]; exact clearC_exp.2 (i (clearC_exp.1 h) (powAll_exp.1 hl))
  | ln a ha i => rw [replace_ln]; exact clearC_ln.2 (i (clearC_ln.1 h) (powAll_ln.1 hl))
  | add a b ha hb i j =>
    rw [replace_add]
    exact clearC_add.2 ⟨i (clearC_add.1 h).1 (powAll_add.1 hl).1, j (clearC_add.1 h).2 (powAll_add.1 hl).2⟩
  | sub a b ha hb i j =>
    rw [replace_sub]
    exact clearC_sub.2 ⟨i (clearC_sub.1 h).1 (powAll_sub.1 hl).1, j (clearC_sub.1 h).2 (powAll_sub.1 hl).2⟩
  | mul a b ha hb i j =>
    rw [replace_mul]
    exact clearC_mul.2 ⟨i (clearC_mul.1 h).1 (powAll_mul.1 hl).1, j (clearC_mul.1 h).2 (powAll_mul.1 hl).2⟩
  | div a b ha hb i j =>
    rw [replace_div]
    exact clearC_div.2 ⟨i (clearC_div.1 h).1 (powAll_div.1 hl).1, j (clearC_div.1 h).2 (powAll_div.1 hl).2⟩

end Rounding

/-! ### `LnOK` under differentiation -/

theorem Agg.lnOK {m : Mode} {e e' : Expr F} (h : Agg m e e') (hs : LnOK x v e) : LnOK x v e' := by
  unfold LnOK at *
  induction h with
  | pow h1 h2 _ _ _ i j =>
    obtain ⟨k1, k2, k3⟩ := powAll_pow.1 hs
    exact powAll_pow.2 ⟨fun hx => k1 (h1.occurs hx), i k2, j k3⟩
  | _ =>
    simp_all [powAll_ofNum, powAll_ofVar, powAll_neg, powAll_add, powAll_sub, powAll_mul, powAll_div,
      powAll_sin, powAll_exp, powAll_ln, powAll_pow, powAll_cos, ofI64, Expr.e]

theorem Der.lnOK {m : Mode} {y : Variable} {e e' : Expr F} (h : Der m y e e') (hs : LnOK x v e) : LnOK x v e' := by
  induction h with
  | num n => exact powAll_ofNum _
  | var => exact powAll_ofNum _
  | var_ne y h => exact powAll_ofNum _
  | neg h1 hg i => exact hg.lnOK (powAll_neg.2 (i (powAll_neg.1 hs)))
  | add h1 h2 hg i j =>
    have hs := powAll_add.1 hs
    exact hg.lnOK (powAll_add.2 ⟨i hs.1, j hs.2⟩)
  | sub h1 h2 hg i j =>
    have hs := powAll_sub.1 hs
    exact hg.lnOK (powAll_sub.2 ⟨i hs.1, j hs.2⟩)
  | mul h1 h2 hg i j =>
    have hs := powAll_mul.1 hs
    exact hg.lnOK (powAll_add.2 ⟨powAll_mul.2 ⟨i hs.1, hs.2⟩, powAll_mul.2 ⟨hs.1, j hs.2⟩⟩)
  | div h1 h2 hg i j =>
    have hs := powAll_div.1 hs
    exact hg.lnOK (powAll_div.2 ⟨powAll_sub.2 ⟨powAll_mul.2 ⟨i hs.1, hs.2⟩, powAll_mul.2 ⟨hs.1, j hs.2⟩⟩,
      powAll_mul.2 ⟨hs.2, hs.2⟩⟩)
  | sin h1 hg i =>
    have hs := powAll_sin.1 hs
    exact hg.lnOK (powAll_mul.2 ⟨powAll_cos.2 hs, i hs⟩)
  | cos h1 hg i =>
    have hs := powAll_cos.1 hs
    exact hg.lnOK (powAll_mul.2 ⟨powAll_neg.2 (powAll_sin.2 hs), i hs⟩)
  | exp h1 hg i => exact hg.lnOK (powAll_mul.2 ⟨i (powAll_exp.1 hs), hs⟩)
  | ln h1 hg i =>
    have hs := powAll_ln.1 hs
    exact hg.lnOK (powAll_div.2 ⟨i hs, hs⟩)
  | pow h1 h2 hg i j =>
    have hs' := powAll_pow.1 hs
    exact hg.lnOK (powAll_mul.2 ⟨hs, powAll_add.2 ⟨powAll_mul.2 ⟨j hs'.2.2, powAll_ln.2 hs'.2.1⟩,
      powAll_div.2 ⟨powAll_mul.2 ⟨hs'.2.2, i hs'.2.1⟩, hs'.2.1⟩⟩⟩)

theorem nthDerivative_lnOK {m : Mode} {d : Expr F} (he : Tree e) (hs : LnOK x v e) (k : Nat)
    (h : nthDerivative m e x k = .ok d) : Tree d ∧ LnOK x v d := by
  induction k generalizing d with
  | zero => cases h; exact ⟨he, hs⟩
  | succ k i =>
    obtain ⟨d', h1, h2⟩ := Out.bind_eq_ok.1 h
    obtain ⟨w, l⟩ := i h1
    have hd := der_of_derivative w h2
    exact ⟨hd.wf (numClosed_true m) w, hd.lnOK l⟩

end SymRust
