import Verif.Proofs.Poly
import Verif.Props.Semantics
/-! # Derivatives and Taylor expansions of polynomials (C56) -/

namespace SymRust
variable {F : Type} [FloatOps F]
open Expr

/-- C56: in every build, differentiating an expression written as a polynomial of degree at most `n` more than `n`
times gives exactly the number 0, if it returns. -/
theorem C56_derivative (m m' : Mode) (e d : Expr F) (he : Built m' e) (x : Variable) (n k : Nat) (hp : PolyIn x n e)
    (hk : n < k) (h : nthDerivative m e x k = .ok d) : d = ofI64 0 :=
  nthDerivative_poly_zero he.tree n k hp hk h

/-- C56: each derivative is again written as a polynomial, of a degree lowered by one each time. -/
theorem C56_degree (m m' : Mode) (e d : Expr F) (he : Built m' e) (x : Variable) (n k : Nat) (hp : PolyIn x n e)
    (hk : k ≤ n) (h : nthDerivative m e x k = .ok d) : PolyIn x (n - k) d :=
  nthDerivative_poly he.tree (n - k) k (by rwa [Nat.sub_add_cancel hk]) h

/-- C56: in every build, a successful expansion of a polynomial of degree at most `n` to order `k` has exactly the
number 0 as every coefficient beyond `n`, and, if `n ≤ k`, the residual 0. -/
theorem C56_expansion (m m' : Mode) (e v : Expr F) (he : Built m' e) (x : Variable) (n : Nat) (k : UInt64)
    (hp : PolyIn x n e) (t : PartialExpansion F) (h : e.taylorExpansion m x v k = .ok t) :
    (∀ i, n < i → i ≤ k.toNat → t.coefficient[i]? = some (ofI64 0)) ∧ (n ≤ k.toNat → t.residual = ofI64 0) := by
  obtain ⟨-, -, -, -, h1, h2⟩ := C33_shape m e v x k t h
  refine ⟨fun i hi hik => ?_, fun hn => nthDerivative_poly_zero he.tree n _ hp (by omega) h1⟩
  obtain ⟨d, s, u, c, g1, g2, g3, g4, g5, -⟩ := h2 i hik
  have hd := nthDerivative_poly_zero he.tree n i hp hi g1
  subst hd
  have hs : (ofI64 0 : Expr F).substitute x v = .ok (ofI64 0) := by
    rw [substitute_eq, ofI64, replace_ofNum]
  rw [hs] at g2
  cases g2
  rw [ofI64, numAggregate_ofNum] at g3
  cases g3
  rw [g5, (aggZero_zero m).div _ g4]

/-- C56: the expansion of a polynomial of degree at most `n` to an order `k ≥ n` is the polynomial itself, everywhere:
with `y i` the values of the coefficients, the expression has at every `s` the value `Σ y i (s - p)^i`. -/
theorem C56_exact (m m' : Mode) (e v : Expr F) (he : Built m e) (hv : Built m' v) (x : Variable) (n : Nat) (k : UInt64)
    (hpoly : PolyIn x n e) (hn : n ≤ k.toNat)
    (t : PartialExpansion F) (h : e.taylorExpansion .strict x v k = .ok t)
    (hsv : Safe SmartNum.exactReal Set.univ v) (hs : SafeD SmartNum.exactReal (AtPoint SmartNum.exactReal x v) e)
    (hl : NoLnIntoBase x v e) (env : Env) (p r : ℝ) (hpt : denote SmartNum.exactReal env v = some p)
    (hr : denote SmartNum.exactReal (env.set x p) e = some r) (hp : PowOK SmartNum.exactReal (env.set x p) x e)
    (y : Nat → ℝ)
    (hy : ∀ i, i ≤ k.toNat → ∃ c, t.coefficient[i]? = some c ∧ denote SmartNum.exactReal env c = some (y i)) (s : ℝ) :
    denote SmartNum.exactReal (env.set x s) e = some (∑ i ∈ Finset.range (k.toNat + 1), y i * (s - p) ^ i) := by
  obtain ⟨P, h1, h2⟩ := hpoly.polynomial he.tree hr
  have hf : fn SmartNum.exactReal env x e = fun t => P.eval t := by
    funext t; rw [fn, h2 t]; rfl
  rw [h2 s, polynomial_taylor_exact P k.toNat (h1.trans hn) p s]
  congr 1
  refine Finset.sum_congr rfl fun i hi => ?_
  have hik : i ≤ k.toNat := by simpa [Nat.lt_succ_iff] using hi
  obtain ⟨c, c1, c2⟩ := hy i hik
  obtain ⟨c', c3, c4⟩ := C34_coefficients m m' e v he hv x k t h hsv hs hl env p r hpt hr hp i hik
  rw [c1] at c3
  cases c3
  rw [c4.1 _ c2, hf]

/-- C56: powers written with `pow` are not polynomials in this sense, and the claim fails for them: no derivative of
x^2 up to the fifth is the number 0. -/
theorem C56_pow_excluded (m : Mode) :
    ∀ k ≤ 5, ∃ d, nthDerivative m ((newVariable "x" : Expr Unit).pow (ofI64 2)) ⟨"x"⟩ k = .ok d ∧ d ≠ ofI64 0 := by
  have key : ∀ k ≤ 5, (match nthDerivative m ((newVariable "x" : Expr Unit).pow (ofI64 2)) ⟨"x"⟩ k with
      | .ok d => !d.isZero
      | _ => false) = true := by
    cases m <;> decide +kernel
  intro k hk
  have := key k hk
  split at this
  · rename_i d hd
    refine ⟨d, hd, ?_⟩
    rintro rfl
    cases this
  · cases this

/-- Sums and products around `x^c` that keep differentiating to each other. -/
inductive PowStuck (x : Variable) (c s : SmartNum F) : Expr F → Prop
  | pow : PowStuck x c s ((ofVar x).pow (ofNum c))
  | mul {p : Expr F} : PowStuck x c s p → PowStuck x c s (p.mul ((ofNum s).div (ofVar x)))
  | add {p q : Expr F} : PowStuck x c s p → Tree q → PowStuck x c s (p.add q)

section
omit [FloatOps F]
variable {x : Variable} {c s : SmartNum F} {e : Expr F}

theorem PowStuck.tree (h : PowStuck x c s e) : Tree e := by
  induction h with
  | pow => exact .pow _ _ (.var _) (.num _ trivial)
  | mul _ i => exact .mul _ _ i (.div _ _ (.num _ trivial) (.var _))
  | add _ hq i => exact .add _ _ i hq

theorem PowStuck.not_num (h : PowStuck x c s e) : e.isNum = false := by cases h <;> rfl
theorem PowStuck.not_zero (h : PowStuck x c s e) : e.isZero = false := by cases h <;> rfl
theorem PowStuck.not_one (h : PowStuck x c s e) : e.isOne = false := by cases h <;> rfl
end

theorem agg_add_args {m : Mode} {t e' : Expr F} (h : Agg m t e') : ∀ {a b : Expr F}, t = a.add b →
    (∃ a', Agg m a a') ∧ ∃ b', Agg m b b' := by
  cases h <;> intro a b ht <;> expr_inj at ht
  all_goals obtain ⟨rfl, rfl⟩ := ht; exact ⟨⟨_, by assumption⟩, ⟨_, by assumption⟩⟩

theorem agg_mul_args {m : Mode} {t e' : Expr F} (h : Agg m t e') : ∀ {a b : Expr F}, t = a.mul b →
    (∃ a', Agg m a a') ∧ ∃ b', Agg m b b' := by
  cases h <;> intro a b ht <;> expr_inj at ht
  all_goals obtain ⟨rfl, rfl⟩ := ht; exact ⟨⟨_, by assumption⟩, ⟨_, by assumption⟩⟩

theorem PowStuck.agg {m : Mode} {x : Variable} {c s : SmartNum F} (hs : s.isZero = false) {e e' : Expr F}
    (h : PowStuck x c s e) (h' : Agg m e e') : PowStuck x c s e' := by
  have wf : ∀ {a a' : Expr F}, Tree a → Agg m a a' → Tree a' := fun ha h => h.wf (numClosed_true m) ha
  induction h generalizing e' with
  | pow =>
    have : Agg m ((ofVar x).pow (ofNum c) : Expr F) ((ofVar x).pow (ofNum c)) :=
      .pow (.var x) (.num _) rfl rfl (fun c h => by expr_inj at h)
    rw [Agg.unique (PowStuck.pow (s := s)).tree h' this]
    exact .pow
  | @mul p hp i =>
    obtain ⟨⟨p', hq⟩, -⟩ := agg_mul_args h' rfl
    have := i hq
    rw [Agg.unique hp.mul.tree h' (.mul hq (.div (.num _) (.var _) rfl hs) (by rw [this.not_num]; rfl) this.not_zero rfl
      this.not_one rfl)]
    exact this.mul
  | @add p q hp ht i =>
    obtain ⟨⟨p', hq⟩, q', hr⟩ := agg_add_args h' rfl
    have := i hq
    cases hz : q'.isZero with
    | false =>
      rw [Agg.unique (hp.add ht).tree h' (.add hq hr (by rw [this.not_num]; rfl) this.not_zero hz)]
      exact this.add (wf ht hr)
    | true =>
      obtain ⟨n, rfl⟩ := tree_num (wf ht hr) (isZero_isNum hz)
      rw [Agg.unique (hp.add ht).tree h' (.add_zero_r hq hr hz this.not_num)]
      exact this

theorem PowStuck.derivative {m : Mode} {x : Variable} {c s : SmartNum F} (hs : s.isZero = false)
    (hc : c.mul m (.ofI64 1) = .ok s) {e d : Expr F} (h : PowStuck x c s e) (h' : e.derivative m x = .ok d) :
    PowStuck x c s d := by
  have td : ∀ {a d : Expr F}, Tree a → a.derivative m x = .ok d → Tree d := fun ha h =>
    (der_of_derivative ha h).wf (numClosed_true m) ha
  induction h generalizing d with
  | pow =>
    rw [derivative_pow, derivative_ofNum, derivative_ofVar, if_pos rfl] at h'
    have h' := Res.lift_eq_ok.mp h'
    have h2 : Agg m ((((ofI64 0).mul (ofVar x).ln).add (((ofNum c).mul (ofI64 1)).div (ofVar x)) : Expr F))
        ((ofNum s).div (ofVar x)) :=
      .add_zero_l (x := .ofI64 0) (.mul_zero_l (.num _) (.ln (.var x) rfl rfl fun c h => by expr_inj at h) rfl rfl)
        (.div (.mul_num (.num _) (.num _) hc) (.var _) rfl hs) rfl rfl
    have h1 : Agg m ((ofVar x).pow (ofNum c) : Expr F) ((ofVar x).pow (ofNum c)) :=
      .pow (.var x) (.num _) rfl rfl (fun c h => by expr_inj at h)
    have h3 := numAggregate_of_agg (.mul _ _ (.pow _ _ (.var _) (.num _ trivial)) (.add _ _ (.mul _ _ (.num _ trivial)
      (.ln _ (.var _))) (.div _ _ (.mul _ _ (.num _ trivial) (.num _ trivial)) (.var _)))) (.mul h1 h2 rfl rfl rfl rfl rfl)
    have h' := h3.symm.trans h'
    cases h'
    exact PowStuck.pow.mul
  | @mul p hp i =>
    rw [derivative_mul, Out.bind_eq_ok] at h'
    obtain ⟨r, h1, h'⟩ := h'
    obtain ⟨l, h2, h'⟩ := Out.bind_eq_ok.mp h'
    have tr := td (.div _ _ (.num _ trivial) (.var _)) h1
    have := (i h2).mul.add (.mul _ _ hp.tree tr)
    exact this.agg hs (agg_of_numAggregate this.tree (Res.lift_eq_ok.mp h'))
  | @add p q hp ht i =>
    rw [derivative_add, Out.bind_eq_ok] at h'
    obtain ⟨r, h1, h'⟩ := h'
    obtain ⟨l, h2, h'⟩ := Out.bind_eq_ok.mp h'
    have := (i h2).add (td ht h1)
    exact this.agg hs (agg_of_numAggregate this.tree (Res.lift_eq_ok.mp h'))

/-- C56: no derivative of any order of x^c, for a number c other than 0, is a number, in any build (although they have the
value 0 from order c + 1 on if c is a natural number); in release builds they all exist. -/
theorem C56_pow_never_zero (m : Mode) (x : Variable) (c : SmartNum F) (hc : c.isZero = false) (k : Nat) :
    (∀ d, nthDerivative m ((ofVar x).pow (ofNum c)) x k = .ok d → ∀ n : SmartNum F, d ≠ ofNum n) ∧
    ∃ d, nthDerivative .release ((ofVar x).pow (ofNum c)) x k = .ok d := by
  have key : ∀ m, ∃ s : SmartNum F, s.isZero = false ∧ c.mul m (.ofI64 1) = .ok s := by
    intro m
    by_cases h1 : c.isOne = true
    · exact ⟨.ofI64 1, rfl, by simp [SmartNum.mul, h1]⟩
    · exact ⟨c, hc, by simp [SmartNum.mul, h1, show (SmartNum.ofI64 1 : SmartNum F).isOne = true from rfl]⟩
  have stuck : ∀ m k d, nthDerivative m ((ofVar x).pow (ofNum c)) x k = .ok d → ∃ s, PowStuck x c s d := by
    intro m k d h
    obtain ⟨s, h1, h2⟩ := key m
    refine ⟨s, ?_⟩
    induction k generalizing d with
    | zero => cases h; exact .pow
    | succ k ih =>
      obtain ⟨d', h3, h4⟩ := Out.bind_eq_ok.mp h
      exact (ih d' h3).derivative h1 h2 h4
  constructor
  · rintro d h n rfl
    obtain ⟨s, hs⟩ := stuck m k _ h
    exact absurd hs.not_num (by simp)
  · induction k with
    | zero => exact ⟨_, rfl⟩
    | succ k ih =>
      obtain ⟨d, hd⟩ := ih
      obtain ⟨s, hs⟩ := stuck .release k d hd
      obtain ⟨d', hd'⟩ := derivative_release hs.tree x
      exact ⟨d', Out.bind_eq_ok.mpr ⟨d, hd, hd'⟩⟩

/-- The cubic (x*x - y) * x + x/3 + sin(y) meets the hypotheses, at the point 2 and order 4, in a debug build; the
coefficients are those one computes by hand. -/
theorem C56_example :
    let x : Expr Unit := newVariable "x"
    let y : Expr Unit := newVariable "y"
    let e := ((((x.mul x).sub y).mul x).add (x.div (ofI64 3))).add y.sin
    PolyIn ⟨"x"⟩ 3 e ∧ Built .debug e ∧
    ∃ t, e.taylorExpansion .strict ⟨"x"⟩ (ofI64 2) 4 = .ok t ∧ t.residual = ofI64 0 ∧
      t.coefficient[3]? = some (ofI64 1) ∧ t.coefficient[4]? = some (ofI64 0) := by
  intro x y e
  have hx : PolyIn ⟨"x"⟩ 1 x := .var le_rfl
  have hy : ¬ Occurs ⟨"x"⟩ y := by
    show ¬ Occurs ⟨"x"⟩ (ofVar ⟨"y"⟩ : Expr Unit)
    rw [occurs_ofVar]; decide
  have bx : Built .debug x := .var _
  have byy : Built .debug y := .var _
  refine ⟨.add (.add (.mul (.sub (.mul hx hx le_rfl) (.free hy)) hx le_rfl) (.div (hx.mono (by omega)) (by simp)))
      (.free (by simpa using hy)),
    .add _ _ (.add _ _ (.mul _ _ (.sub _ _ (.mul _ _ bx bx) byy) bx) (.div _ _ bx (.num _ (.ofI64 3)))) (.sin _ byy), ?_⟩
  obtain ⟨t, ht⟩ := Out.exists_of_isOk (o := e.taylorExpansion .strict ⟨"x"⟩ (ofI64 2) 4) (by krfl)
  refine ⟨t, ht, ?_⟩
  have : (match e.taylorExpansion .strict ⟨"x"⟩ (ofI64 2) 4 with
    | .ok t => decide (t.residual = ofI64 0 ∧ t.coefficient[3]? = some (ofI64 1) ∧ t.coefficient[4]? = some (ofI64 0))
    | _ => false) = true := by decide +kernel
  rw [ht] at this
  simpa using this

/-- The same cubic at the same point meets the remaining hypotheses of `C56_exact`, at every assignment. -/
theorem C56_example_conditions (env : Env) :
    let x : Expr F := newVariable "x"
    let y : Expr F := newVariable "y"
    let e := ((((x.mul x).sub y).mul x).add (x.div (ofI64 3))).add y.sin
    Safe SmartNum.exactReal Set.univ (ofI64 2 : Expr F) ∧
    SafeD SmartNum.exactReal (AtPoint SmartNum.exactReal ⟨"x"⟩ (ofI64 2 : Expr F)) e ∧ NoLnIntoBase ⟨"x"⟩ (ofI64 2) e ∧
    denote SmartNum.exactReal env (ofI64 2 : Expr F) = some 2 ∧
    denote SmartNum.exactReal (env.set ⟨"x"⟩ 2) e = some ((2 * 2 - env ⟨"y"⟩) * 2 + 2 / 3 + Real.sin (env ⟨"y"⟩)) ∧
    PowOK SmartNum.exactReal (env.set ⟨"x"⟩ 2) ⟨"x"⟩ e := by
  intro x y e
  have hx : x = ofVar ⟨"x"⟩ := rfl
  have hy : y = ofVar ⟨"y"⟩ := rfl
  have h2 : ∀ env : Env, denote SmartNum.exactReal env (ofI64 2 : Expr F) = some 2 := by
    intro env; rw [denote_int]; simp [show (2 : Int64).toInt = 2 by decide]
  have h3 : ∀ env : Env, denote SmartNum.exactReal env (ofI64 3 : Expr F) = some 3 := by
    intro env; rw [denote_int]; simp [show (3 : Int64).toInt = 3 by decide]
  have hset : denote SmartNum.exactReal (env.set ⟨"x"⟩ 2) x = some 2 := by simp [hx, Env.set]
  have hsety : denote SmartNum.exactReal (env.set ⟨"x"⟩ 2) y = some (env ⟨"y"⟩) := by simp [hy, Env.set]
  have hpow : Everywhere (fun s : Expr F => ∀ a b : Expr F, s ≠ a.pow b) e := by
    have l1 : ∀ v : Variable, Everywhere (fun s : Expr F => ∀ a b : Expr F, s ≠ a.pow b) (ofVar v) :=
      fun v => everywhere_ofVar.2 fun a b h => by expr_inj at h
    refine everywhere_add.2 ⟨fun a b h => by expr_inj at h, everywhere_add.2 ⟨fun a b h => by expr_inj at h,
      everywhere_mul.2 ⟨fun a b h => by expr_inj at h, everywhere_sub.2 ⟨fun a b h => by expr_inj at h,
        everywhere_mul.2 ⟨fun a b h => by expr_inj at h, l1 _, l1 _⟩, l1 _⟩, l1 _⟩,
      everywhere_div.2 ⟨fun a b h => by expr_inj at h, l1 _, everywhere_ofNum.2 fun a b h => by expr_inj at h⟩⟩,
      everywhere_sin.2 ⟨fun a b h => by expr_inj at h, l1 _⟩⟩
  refine ⟨safe_ofNum _, ?_, fun a b h => absurd rfl (hpow _ h a b), h2 env, ?_, fun s hs a b h => absurd h (hpow s hs a b)⟩
  · have := safeD_ofVar (F := F) (ν := SmartNum.exactReal) (E := AtPoint SmartNum.exactReal ⟨"x"⟩ (ofI64 2 : Expr F))
    refine safeD_add.2 ⟨safeD_add.2 ⟨safeD_mul.2 ⟨safeD_sub.2 ⟨safeD_mul.2 ⟨this _, this _⟩, this _⟩, this _⟩,
      safeD_div.2 ⟨this _, safeD_ofNum _⟩⟩, safeD_sin.2 ⟨?_, this _⟩⟩
    refine ⟨Env.set (fun _ => 0) ⟨"x"⟩ 2, ⟨fun _ => 0, 2, h2 _, rfl⟩, 0, by simp [hy, Env.set], Real.pi_ne_zero.symm⟩
  · exact denote_add.2 ⟨_, _, denote_add.2 ⟨_, _, denote_mul.2 ⟨_, _, denote_sub.2 ⟨_, _,
      denote_mul.2 ⟨_, _, hset, hset, rfl⟩, hsety, rfl⟩, hset, rfl⟩,
      denote_div.2 ⟨_, _, hset, h3 _, by norm_num, rfl⟩, rfl⟩, denote_sin.2 ⟨_, hsety, rfl⟩, rfl⟩

end SymRust
