import Verif.Spec.Poly
import Verif.Proofs.DerSafe
import Verif.Proofs.TaylorSem
import Mathlib.Algebra.Polynomial.Taylor
import Mathlib.Analysis.Calculus.Deriv.Polynomial
/-! Polynomials: degrees fall under `derivative`. -/

namespace SymRust
variable {F : Type}
open Expr

section
variable [FloatOps F] {x : Variable}

theorem PolyIn.mono {n k : Nat} {e : Expr F} (h : PolyIn x n e) (hk : n ≤ k) : PolyIn x k e := by
  induction h generalizing k with
  | free h => exact .free h
  | var h => exact .var (h.trans hk)
  | neg _ i => exact .neg (i hk)
  | add _ _ i j => exact .add (i hk) (j hk)
  | sub _ _ i j => exact .sub (i hk) (j hk)
  | mul h1 h2 hn => exact .mul h1 h2 (hn.trans hk)
  | div _ hb i => exact .div (i hk) hb

theorem PolyIn.free_of_zero {n : Nat} {e : Expr F} (h : PolyIn x n e) (hn : n = 0) : ¬ Occurs x e := by
  induction h with
  | free h => exact h
  | var h => omega
  | neg _ i => rw [occurs_neg]; exact i hn
  | add _ _ i j => rw [occurs_add, not_or]; exact ⟨i hn, j hn⟩
  | sub _ _ i j => rw [occurs_sub, not_or]; exact ⟨i hn, j hn⟩
  | mul _ _ h i j => rw [occurs_mul, not_or]; exact ⟨i (by omega), j (by omega)⟩
  | div _ hb i => rw [occurs_div, not_or]; exact ⟨i hn, hb⟩

theorem polyIn_ofNum (n : Nat) (k : SmartNum F) : PolyIn x n (ofNum k) := .free (by simp)

theorem PolyIn.neg_inv {n : Nat} {a : Expr F} (h : PolyIn x n a.neg) : PolyIn x n a := by
  generalize he : a.neg = e at h
  cases h with
  | free h => subst he; exact .free (by simpa using h)
  | neg h => expr_inj at he; subst he; exact h
  | _ => expr_inj at he

/-- `num_aggregate` does not raise the degree. -/
theorem PolyIn.agg {m : Mode} {n : Nat} {e e' : Expr F} (h : PolyIn x n e) (ha : Agg m e e') : PolyIn x n e' := by
  induction h generalizing e' with
  | free h => exact .free fun h' => h (ha.occurs h')
  | var h =>
    generalize he : (ofVar x : Expr F) = e at ha
    cases ha with
    | var => rw [← he]; exact .var h
    | _ => expr_inj at he
  | @neg n a _ i =>
    generalize he : a.neg = e at ha
    cases ha with
    | neg_num => exact polyIn_ofNum _ _
    | neg_neg h1 => expr_inj at he; subst he; exact (i h1).neg_inv
    | neg h1 => expr_inj at he; subst he; exact .neg (i h1)
    | _ => expr_inj at he
  | @add n a b _ _ i j =>
    generalize he : a.add b = e at ha
    cases ha with
    | add_num => exact polyIn_ofNum _ _
    | add_zero_l h1 h2 => expr_inj at he; obtain ⟨rfl, rfl⟩ := he; exact j h2
    | add_zero_r h1 h2 => expr_inj at he; obtain ⟨rfl, rfl⟩ := he; exact i h1
    | add h1 h2 => expr_inj at he; obtain ⟨rfl, rfl⟩ := he; exact .add (i h1) (j h2)
    | _ => expr_inj at he
  | @sub n a b _ _ i j =>
    generalize he : a.sub b = e at ha
    cases ha with
    | sub_num => exact polyIn_ofNum _ _
    | sub_zero_l h1 h2 => expr_inj at he; obtain ⟨rfl, rfl⟩ := he; exact .neg (j h2)
    | sub_zero_r h1 h2 => expr_inj at he; obtain ⟨rfl, rfl⟩ := he; exact i h1
    | sub h1 h2 => expr_inj at he; obtain ⟨rfl, rfl⟩ := he; exact .sub (i h1) (j h2)
    | _ => expr_inj at he
  | @mul p q n a b _ _ hn i j =>
    generalize he : a.mul b = e at ha
    cases ha with
    | mul_num => exact polyIn_ofNum _ _
    | mul_zero_l h1 h2 => exact polyIn_ofNum _ _
    | mul_zero_r h1 h2 => exact polyIn_ofNum _ _
    | mul_one_l h1 h2 => expr_inj at he; obtain ⟨rfl, rfl⟩ := he; exact (j h2).mono (by omega)
    | mul_one_r h1 h2 => expr_inj at he; obtain ⟨rfl, rfl⟩ := he; exact (i h1).mono (by omega)
    | mul h1 h2 => expr_inj at he; obtain ⟨rfl, rfl⟩ := he; exact .mul (i h1) (j h2) hn
    | _ => expr_inj at he
  | @div n a b _ hb i =>
    generalize he : a.div b = e at ha
    cases ha with
    | div_num => exact polyIn_ofNum _ _
    | div_zero_l h1 h2 => exact polyIn_ofNum _ _
    | div h1 h2 => expr_inj at he; obtain ⟨rfl, rfl⟩ := he; exact .div (i h1) fun h => hb (h2.occurs h)
    | _ => expr_inj at he

/-- Aggregating a product with a literal zero (whatever the degree of the rest). -/
theorem agg_zero_poly {m : Mode} {n : Nat} {a e : Expr F} (ha : Tree a) (hz : AggZero m a) (h : Agg m a e) :
    PolyIn x n e := by
  rw [hz e (numAggregate_of_agg ha h)]; exact polyIn_ofNum _ _

theorem agg_add_split {m : Mode} {n : Nat} {a b e : Expr F} (h : Agg m (a.add b) e)
    (ha : ∀ a', Agg m a a' → PolyIn x n a') (hb : ∀ b', Agg m b b' → PolyIn x n b') : PolyIn x n e := by
  generalize he : a.add b = s at h
  cases h with
  | add_num => exact polyIn_ofNum _ _
  | add_zero_l h1 h2 => expr_inj at he; obtain ⟨rfl, rfl⟩ := he; exact hb _ h2
  | add_zero_r h1 h2 => expr_inj at he; obtain ⟨rfl, rfl⟩ := he; exact ha _ h1
  | add h1 h2 => expr_inj at he; obtain ⟨rfl, rfl⟩ := he; exact .add (ha _ h1) (hb _ h2)
  | _ => expr_inj at he

theorem agg_sub_split {m : Mode} {n : Nat} {a b e : Expr F} (h : Agg m (a.sub b) e)
    (ha : ∀ a', Agg m a a' → PolyIn x n a') (hb : ∀ b', Agg m b b' → PolyIn x n b') : PolyIn x n e := by
  generalize he : a.sub b = s at h
  cases h with
  | sub_num => exact polyIn_ofNum _ _
  | sub_zero_l h1 h2 => expr_inj at he; obtain ⟨rfl, rfl⟩ := he; exact .neg (hb _ h2)
  | sub_zero_r h1 h2 => expr_inj at he; obtain ⟨rfl, rfl⟩ := he; exact ha _ h1
  | sub h1 h2 => expr_inj at he; obtain ⟨rfl, rfl⟩ := he; exact .sub (ha _ h1) (hb _ h2)
  | _ => expr_inj at he

theorem agg_div_split {m : Mode} {n : Nat} {a b e : Expr F} (h : Agg m (a.div b) e)
    (ha : ∀ a', Agg m a a' → PolyIn x n a') (hb : ¬ Occurs x b) : PolyIn x n e := by
  generalize he : a.div b = s at h
  cases h with
  | div_num => exact polyIn_ofNum _ _
  | div_zero_l h1 h2 => exact polyIn_ofNum _ _
  | div h1 h2 => expr_inj at he; obtain ⟨rfl, rfl⟩ := he; exact .div (ha _ h1) fun h => hb (h2.occurs h)
  | _ => expr_inj at he

/-- `derivative` lowers the degree. -/
theorem PolyIn.der {m : Mode} {n : Nat} {e d : Expr F} (he : Tree e) (h : PolyIn x (n + 1) e) (hd : Der m x e d) :
    PolyIn x n d := by
  generalize hk : n + 1 = k at h
  have wf : ∀ {a a' : Expr F}, Tree a → Der m x a a' → Tree a' := fun ha h => h.wf (numClosed_true m) ha
  induction h generalizing d n with
  | free h => rw [hd.absent he h]; exact polyIn_ofNum _ _
  | var h =>
    generalize hs : (ofVar x : Expr F) = s at hd
    cases hd with
    | var => exact polyIn_ofNum _ _
    | var_ne => exact polyIn_ofNum _ _
    | _ => expr_inj at hs
  | @neg k a _ i =>
    generalize hs : a.neg = s at hd
    cases hd with
    | neg h1 h2 => expr_inj at hs; subst hs; exact (PolyIn.neg (i (WF.neg_iff.1 he) h1 hk)).agg h2
    | _ => expr_inj at hs
  | @add k a b _ _ i j =>
    generalize hs : a.add b = s at hd
    cases hd with
    | add h1 h2 h3 =>
      expr_inj at hs; obtain ⟨rfl, rfl⟩ := hs
      have hw := WF.add_iff.1 he
      exact (PolyIn.add (i hw.1 h1 hk) (j hw.2 h2 hk)).agg h3
    | _ => expr_inj at hs
  | @sub k a b _ _ i j =>
    generalize hs : a.sub b = s at hd
    cases hd with
    | sub h1 h2 h3 =>
      expr_inj at hs; obtain ⟨rfl, rfl⟩ := hs
      have hw := WF.sub_iff.1 he
      exact (PolyIn.sub (i hw.1 h1 hk) (j hw.2 h2 hk)).agg h3
    | _ => expr_inj at hs
  | @mul p q k a b ha hb hn i j =>
    generalize hs : a.mul b = s at hd
    cases hd with
    | @mul _ _ a' b' _ h1 h2 h3 =>
      expr_inj at hs; obtain ⟨rfl, rfl⟩ := hs
      have hw := WF.mul_iff.1 he
      refine agg_add_split h3 (fun r hr => ?_) (fun r hr => ?_)
      · cases p with
        | zero =>
          have := h1.absent hw.1 (ha.free_of_zero rfl)
          subst this
          exact agg_zero_poly (.mul _ _ (.num _ trivial) hw.2) (aggZero_zero m).mul_left hr
        | succ p => exact (PolyIn.mul (i hw.1 h1 rfl) hb (by omega)).agg hr
      · cases q with
        | zero =>
          have := h2.absent hw.2 (hb.free_of_zero rfl)
          subst this
          exact agg_zero_poly (.mul _ _ hw.1 (.num _ trivial)) (aggZero_zero m).mul_right hr
        | succ q => exact (PolyIn.mul ha (j hw.2 h2 rfl) (by omega)).agg hr
    | _ => expr_inj at hs
  | @div k a b ha hb i =>
    generalize hs : a.div b = s at hd
    cases hd with
    | @div _ _ a' b' _ h1 h2 h3 =>
      expr_inj at hs; obtain ⟨rfl, rfl⟩ := hs
      have hw := WF.div_iff.1 he
      refine agg_div_split h3 (fun r hr => agg_sub_split hr (fun r hr => ?_) fun r hr => ?_) (by simp [hb])
      · exact (PolyIn.mul (i hw.1 h1 hk) (.free (n := 0) hb) (by omega)).agg hr
      · have := h2.absent hw.2 hb
        subst this
        exact agg_zero_poly (.mul _ _ hw.1 (.num _ trivial)) (aggZero_zero m).mul_right hr
    | _ => expr_inj at hs

theorem nthDerivative_tree {m : Mode} {e d : Expr F} (he : Tree e) (k : Nat) (h : nthDerivative m e x k = .ok d) :
    Tree d := by
  induction k generalizing d with
  | zero => cases h; exact he
  | succ k ih =>
    obtain ⟨d', h1, h2⟩ := Out.bind_eq_ok.1 h
    exact (der_of_derivative (ih h1) h2).wf (numClosed_true m) (ih h1)

theorem nthDerivative_poly {m : Mode} {e d : Expr F} (he : Tree e) (n k : Nat) (hp : PolyIn x (n + k) e)
    (h : nthDerivative m e x k = .ok d) : PolyIn x n d := by
  induction k generalizing d n with
  | zero => cases h; exact hp
  | succ k ih =>
    obtain ⟨d', h1, h2⟩ := Out.bind_eq_ok.1 h
    have t := nthDerivative_tree he k h1
    exact (ih (n + 1) (by rwa [show n + 1 + k = n + (k + 1) by omega]) h1).der t (der_of_derivative t h2)

/-- Differentiating a polynomial more often than its degree gives the literal 0. -/
theorem nthDerivative_poly_zero {m : Mode} {e d : Expr F} (he : Tree e) (n k : Nat) (hp : PolyIn x n e) (hk : n < k)
    (h : nthDerivative m e x k = .ok d) : d = ofI64 0 := by
  obtain ⟨k, rfl⟩ : ∃ i, k = i + 1 := ⟨k - 1, by omega⟩
  obtain ⟨d', h1, h2⟩ := Out.bind_eq_ok.1 h
  have t := nthDerivative_tree he k h1
  exact derivative_absent t ((nthDerivative_poly he 0 k (hp.mono (by omega)) h1).free_of_zero rfl) h2

end

/-! ### the function -/

open Polynomial in
/-- The function of a polynomial expression is a polynomial function. -/
theorem PolyIn.polynomial {ν : SmartNum F → Option ℝ} {x : Variable} {n : Nat} {e : Expr F} (he : Tree e)
    (h : PolyIn x n e) {env : Env} {p r : ℝ} (hr : denote ν (env.set x p) e = some r) :
    ∃ P : ℝ[X], P.natDegree ≤ n ∧ ∀ t, denote ν (env.set x t) e = some (P.eval t) := by
  induction h generalizing r with
  | free h =>
    refine ⟨C r, by simp, fun t => ?_⟩
    rw [denote_absent he h] at hr ⊢
    rw [eval_C]; exact hr
  | var h => exact ⟨X, natDegree_X_le.trans h, fun t => by simp [Env.set]⟩
  | neg _ i =>
    obtain ⟨u, hu, rfl⟩ := denote_neg.1 hr
    obtain ⟨P, h1, h2⟩ := i (WF.neg_iff.1 he) hu
    exact ⟨-P, by simpa using h1, fun t => denote_neg.2 ⟨_, h2 t, by simp⟩⟩
  | add _ _ i j =>
    obtain ⟨u, v, hu, hv, rfl⟩ := denote_add.1 hr
    have hw := WF.add_iff.1 he
    obtain ⟨P, h1, h2⟩ := i hw.1 hu
    obtain ⟨Q, h3, h4⟩ := j hw.2 hv
    exact ⟨P + Q, natDegree_add_le_of_degree_le h1 h3, fun t => denote_add.2 ⟨_, _, h2 t, h4 t, by simp⟩⟩
  | sub _ _ i j =>
    obtain ⟨u, v, hu, hv, rfl⟩ := denote_sub.1 hr
    have hw := WF.sub_iff.1 he
    obtain ⟨P, h1, h2⟩ := i hw.1 hu
    obtain ⟨Q, h3, h4⟩ := j hw.2 hv
    exact ⟨P - Q, (natDegree_sub_le_of_le h1 h3).trans (by simp), fun t => denote_sub.2 ⟨_, _, h2 t, h4 t, by simp⟩⟩
  | mul _ _ hn i j =>
    obtain ⟨u, v, hu, hv, rfl⟩ := denote_mul.1 hr
    have hw := WF.mul_iff.1 he
    obtain ⟨P, h1, h2⟩ := i hw.1 hu
    obtain ⟨Q, h3, h4⟩ := j hw.2 hv
    exact ⟨P * Q, (natDegree_mul_le_of_le h1 h3).trans hn, fun t => denote_mul.2 ⟨_, _, h2 t, h4 t, by simp⟩⟩
  | div _ hb i =>
    obtain ⟨u, v, hu, hv, hv0, rfl⟩ := denote_div.1 hr
    have hw := WF.div_iff.1 he
    obtain ⟨P, h1, h2⟩ := i hw.1 hu
    refine ⟨C v⁻¹ * P, (natDegree_C_mul_le _ _).trans h1, fun t => denote_div.2 ⟨_, v, h2 t, ?_, hv0, ?_⟩⟩
    · rw [denote_absent hw.2 hb] at hv ⊢; exact hv
    · simp [div_eq_mul_inv, mul_comm]

open Polynomial in
theorem iteratedDeriv_polynomial (P : ℝ[X]) (k : Nat) :
    iteratedDeriv k (fun t => P.eval t) = fun t => (derivative^[k] P).eval t := by
  induction k with
  | zero => simp
  | succ k ih =>
    rw [iteratedDeriv_succ, ih, Function.iterate_succ_apply']
    funext t; simp

open Polynomial in
/-- Taylor's formula is exact for polynomials. -/
theorem polynomial_taylor_exact (P : ℝ[X]) (n : Nat) (hn : P.natDegree ≤ n) (p t : ℝ) :
    P.eval t = ∑ k ∈ Finset.range (n + 1),
      iteratedDeriv k (fun t => P.eval t) p / (k.factorial : ℝ) * (t - p) ^ k := by
  have h1 : P.eval t = (taylor p P).eval (t - p) := by rw [taylor_eval]; simp
  rw [h1, eval_eq_sum_range' (n := n + 1) (by rw [natDegree_taylor]; omega)]
  refine Finset.sum_congr rfl fun k _ => ?_
  congr 1
  rw [taylor_coeff, iteratedDeriv_polynomial, ← factorial_smul_hasseDeriv]
  have : (k.factorial : ℝ) ≠ 0 := by exact_mod_cast k.factorial_ne_zero
  simp [LinearMap.smul_apply, nsmul_eq_mul]
  field_simp

end SymRust
