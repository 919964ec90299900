import Verif.Proofs.EncloseDer
/-! Simplifications that preserve enclosures, together with those of all derivatives. -/

namespace SymRust
variable {F : Type} [FloatOps F] {R : Rounding F}
open Expr

namespace Rounding
variable {V : Ranges} {a b c e e' h : Expr F} {S S₁ S₂ : Set ℝ} {x : Variable} {env : Env} {v w : ℝ}

/-- The value (0 where undefined). -/
noncomputable def vl (R : Rounding F) (env : Env) (e : Expr F) : ℝ := (denote R.real? env e).getD 0

theorem vl_eq (h : denote R.real? env e = some v) : R.vl env e = v := by simp [vl, h]

theorem vl_mul_self (R : Rounding F) (env : Env) (b : Expr F) : R.vl env (b.mul b) = R.vl env b * R.vl env b := by
  cases hb : denote R.real? env b with
  | none =>
    have : denote R.real? env (b.mul b) = none := by
      cases hm : denote R.real? env (b.mul b) with
      | none => rfl
      | some r => obtain ⟨u, v, h1, -⟩ := denote_mul.1 hm; rw [hb] at h1; cases h1
    simp [vl, hb, this]
  | some r => rw [vl_eq (denote_mul.2 ⟨r, r, hb, hb, rfl⟩), vl_eq hb]

/-- `Lin e h k`: `e` has an occurrence of `h` on which it depends linearly, with coefficient `k`. -/
inductive Lin (R : Rounding F) : Expr F → Expr F → (Env → ℝ) → Prop
  | hole (h : Expr F) : Lin R h h fun _ => 1
  | mul_l {a b h : Expr F} {k : Env → ℝ} : Lin R a h k → Lin R (a.mul b) h fun env => k env * R.vl env b
  | mul_r {a b h : Expr F} {k : Env → ℝ} : Lin R b h k → Lin R (a.mul b) h fun env => R.vl env a * k env
  | div {a b h : Expr F} {k : Env → ℝ} : Lin R a h k → Lin R (a.div b) h fun env => k env / R.vl env b
  | add_l {a b h : Expr F} {k : Env → ℝ} : Lin R a h k → Lin R (a.add b) h k
  | add_r {a b h : Expr F} {k : Env → ℝ} : Lin R b h k → Lin R (a.add b) h k
  | sub_l {a b h : Expr F} {k : Env → ℝ} : Lin R a h k → Lin R (a.sub b) h k
  | sub_r {a b h : Expr F} {k : Env → ℝ} : Lin R b h k → Lin R (a.sub b) h fun env => - k env

theorem Lin.textbook {k : Env → ℝ} (hl : R.Lin e h k) (x : Variable) : R.Lin (e.textbook x) (h.textbook x) k := by
  induction hl with
  | hole h => exact .hole _
  | mul_l _ i => rw [textbook_mul]; exact .add_l (.mul_l i)
  | mul_r _ i => rw [textbook_mul]; exact .add_r (.mul_r i)
  | @div a b h k _ i =>
    rw [textbook_div]
    have : (fun env => k env / R.vl env b) = fun env => k env * R.vl env b / R.vl env (b.mul b) := by
      funext env
      rw [vl_mul_self]
      by_cases h0 : R.vl env b = 0
      · simp [h0]
      · rw [mul_div_mul_right _ _ h0]
    rw [this]
    exact .div (.sub_l (.mul_l i))
  | add_l _ i => rw [textbook_add]; exact .add_l i
  | add_r _ i => rw [textbook_add]; exact .add_r i
  | sub_l _ i => rw [textbook_sub]; exact .sub_l i
  | sub_r _ i => rw [textbook_sub]; exact .sub_r i

theorem Lin.defined {k : Env → ℝ} (hl : R.Lin e h k) (hv : denote R.real? env e = some v) :
    ∃ w, denote R.real? env h = some w := by
  induction hl generalizing v with
  | hole h => exact ⟨v, hv⟩
  | mul_l _ i => obtain ⟨p, q, h1, h2, -⟩ := denote_mul.1 hv; exact i h1
  | mul_r _ i => obtain ⟨p, q, h1, h2, -⟩ := denote_mul.1 hv; exact i h2
  | div _ i => obtain ⟨p, q, h1, h2, -⟩ := denote_div.1 hv; exact i h1
  | add_l _ i => obtain ⟨p, q, h1, h2, -⟩ := denote_add.1 hv; exact i h1
  | add_r _ i => obtain ⟨p, q, h1, h2, -⟩ := denote_add.1 hv; exact i h2
  | sub_l _ i => obtain ⟨p, q, h1, h2, -⟩ := denote_sub.1 hv; exact i h1
  | sub_r _ i => obtain ⟨p, q, h1, h2, -⟩ := denote_sub.1 hv; exact i h2

theorem Lin.occurs {k : Env → ℝ} (hl : R.Lin e h k) {y : Variable} (hy : Occurs y h) : Occurs y e := by
  induction hl with
  | hole h => exact hy
  | mul_l _ i => exact (occurs_mul _ _ _).2 (.inl (i hy))
  | mul_r _ i => exact (occurs_mul _ _ _).2 (.inr (i hy))
  | div _ i => exact (occurs_div _ _ _).2 (.inl (i hy))
  | add_l _ i => exact (occurs_add _ _ _).2 (.inl (i hy))
  | add_r _ i => exact (occurs_add _ _ _).2 (.inr (i hy))
  | sub_l _ i => exact (occurs_sub _ _ _).2 (.inl (i hy))
  | sub_r _ i => exact (occurs_sub _ _ _).2 (.inr (i hy))

theorem Lin.cov {k : Env → ℝ} (hl : R.Lin e h k) (hV : env ∈ V.envs) (hc : R.Cov V e S) :
    ∃ T, R.Cov V h T ∧ ∀ t ∈ T, R.vl env e + k env * (t - R.vl env h) ∈ S := by
  induction hl generalizing S with
  | hole h => exact ⟨S, hc, fun t ht => by simpa using ht⟩
  | mul_l _ i =>
    obtain ⟨S₁, S₂, w1, w2, hb⟩ := cov_mul.1 hc
    obtain ⟨T, t1, t2⟩ := i w1
    obtain ⟨p, -, hp⟩ := w1.value hV
    obtain ⟨q, hq', hq⟩ := w2.value hV
    refine ⟨T, t1, fun t ht => ?_⟩
    have := (hb _ (t2 t ht) _ hq').1 (mem_blur _)
    beta_reduce
    rw [vl_eq (denote_mul.2 ⟨_, _, hp, hq, rfl⟩), vl_eq hq]
    rw [vl_eq hp] at this
    convert this using 1; ring
  | mul_r _ i =>
    obtain ⟨S₁, S₂, w1, w2, hb⟩ := cov_mul.1 hc
    obtain ⟨T, t1, t2⟩ := i w2
    obtain ⟨p, hp', hp⟩ := w1.value hV
    obtain ⟨q, -, hq⟩ := w2.value hV
    refine ⟨T, t1, fun t ht => ?_⟩
    have := (hb _ hp' _ (t2 t ht)).1 (mem_blur _)
    beta_reduce
    rw [vl_eq (denote_mul.2 ⟨_, _, hp, hq, rfl⟩), vl_eq hp]
    rw [vl_eq hq] at this
    convert this using 1; ring
  | div _ i =>
    obtain ⟨S₁, S₂, w1, w2, hb⟩ := cov_div.1 hc
    obtain ⟨T, t1, t2⟩ := i w1
    obtain ⟨p, hp', hp⟩ := w1.value hV
    obtain ⟨q, hq', hq⟩ := w2.value hV
    refine ⟨T, t1, fun t ht => ?_⟩
    obtain ⟨h0, h1, -⟩ := hb _ (t2 t ht) _ hq'
    have := h1 (mem_blur _)
    beta_reduce
    rw [vl_eq (denote_div.2 ⟨_, _, hp, hq, h0, rfl⟩), vl_eq hq]
    rw [vl_eq hp] at this
    convert this using 1; ring
  | add_l _ i =>
    obtain ⟨S₁, S₂, w1, w2, hb⟩ := cov_add.1 hc
    obtain ⟨T, t1, t2⟩ := i w1
    obtain ⟨p, -, hp⟩ := w1.value hV
    obtain ⟨q, hq', hq⟩ := w2.value hV
    refine ⟨T, t1, fun t ht => ?_⟩
    have := (hb _ (t2 t ht) _ hq').1 (mem_blur _)
    rw [vl_eq (denote_add.2 ⟨_, _, hp, hq, rfl⟩)]
    rw [vl_eq hp] at this
    convert this using 1; ring
  | add_r _ i =>
    obtain ⟨S₁, S₂, w1, w2, hb⟩ := cov_add.1 hc
    obtain ⟨T, t1, t2⟩ := i w2
    obtain ⟨p, hp', hp⟩ := w1.value hV
    obtain ⟨q, -, hq⟩ := w2.value hV
    refine ⟨T, t1, fun t ht => ?_⟩
    have := (hb _ hp' _ (t2 t ht)).1 (mem_blur _)
    rw [vl_eq (denote_add.2 ⟨_, _, hp, hq, rfl⟩)]
    rw [vl_eq hq] at this
    convert this using 1; ring
  | sub_l _ i =>
    obtain ⟨S₁, S₂, w1, w2, hb⟩ := cov_sub.1 hc
    obtain ⟨T, t1, t2⟩ := i w1
    obtain ⟨p, -, hp⟩ := w1.value hV
    obtain ⟨q, hq', hq⟩ := w2.value hV
    refine ⟨T, t1, fun t ht => ?_⟩
    have := (hb _ (t2 t ht) _ hq').1 (mem_blur _)
    rw [vl_eq (denote_sub.2 ⟨_, _, hp, hq, rfl⟩)]
    rw [vl_eq hp] at this
    convert this using 1; ring
  | sub_r _ i =>
    obtain ⟨S₁, S₂, w1, w2, hb⟩ := cov_sub.1 hc
    obtain ⟨T, t1, t2⟩ := i w2
    obtain ⟨p, hp', hp⟩ := w1.value hV
    obtain ⟨q, -, hq⟩ := w2.value hV
    refine ⟨T, t1, fun t ht => ?_⟩
    have := (hb _ hp' _ (t2 t ht)).1 (mem_blur _)
    rw [vl_eq (denote_sub.2 ⟨_, _, hp, hq, rfl⟩)]
    rw [vl_eq hq] at this
    convert this using 1; ring

/-- Sums and differences of products and quotients. -/
inductive PS : Expr F → Prop
  | mul (a b : Expr F) : PS (a.mul b)
  | div (a b : Expr F) : PS (a.div b)
  | add {a b : Expr F} : PS a → PS b → PS (a.add b)
  | sub {a b : Expr F} : PS a → PS b → PS (a.sub b)

omit [FloatOps F] in
theorem PS.textbook (he : PS e) (x : Variable) : PS (e.textbook x) := by
  induction he with
  | mul a b => rw [textbook_mul]; exact .add (.mul _ _) (.mul _ _)
  | div a b => rw [textbook_div]; exact .div _ _
  | add _ _ i j => rw [textbook_add]; exact .add i j
  | sub _ _ i j => rw [textbook_sub]; exact .sub i j

omit [FloatOps F] in
theorem PS.defined {ν : SmartNum F → Option ℝ} (he : PS e) (hv : denote ν env (e.textbook x) = some v) :
    ∃ w, denote ν env e = some w := by
  induction he generalizing v with
  | mul a b =>
    rw [textbook_mul] at hv
    obtain ⟨p, q, hp, hq, -⟩ := denote_add.1 hv
    obtain ⟨-, r, -, hr, -⟩ := denote_mul.1 hp
    obtain ⟨s, -, hs, -⟩ := denote_mul.1 hq
    exact ⟨_, denote_mul.2 ⟨_, _, hs, hr, rfl⟩⟩
  | div a b =>
    rw [textbook_div] at hv
    obtain ⟨o, z, ho, hz, hz0, -⟩ := denote_div.1 hv
    obtain ⟨p, q, hp, hq, -⟩ := denote_sub.1 ho
    obtain ⟨-, r, -, hr, -⟩ := denote_mul.1 hp
    obtain ⟨s, -, hs, -⟩ := denote_mul.1 hq
    obtain ⟨z, z', h1, h2, rfl⟩ := denote_mul.1 hz
    exact ⟨_, denote_div.2 ⟨_, _, hs, h1, left_ne_zero_of_mul hz0, rfl⟩⟩
  | add _ _ i j =>
    rw [textbook_add] at hv
    obtain ⟨p, q, hp, hq, -⟩ := denote_add.1 hv
    obtain ⟨u, hu⟩ := i hp
    obtain ⟨u', hu'⟩ := j hq
    exact ⟨_, denote_add.2 ⟨_, _, hu, hu', rfl⟩⟩
  | sub _ _ i j =>
    rw [textbook_sub] at hv
    obtain ⟨p, q, hp, hq, -⟩ := denote_sub.1 hv
    obtain ⟨u, hu⟩ := i hp
    obtain ⟨u', hu'⟩ := j hq
    exact ⟨_, denote_sub.2 ⟨_, _, hu, hu', rfl⟩⟩

/-- Simplifications that preserve enclosures. -/
inductive Red (R : Rounding F) (x : Variable) : Expr F → Expr F → Prop
  | refl (e : Expr F) : Red R x e e
  | trans {a b c : Expr F} : Red R x a b → Red R x b c → Red R x a c
  | neg {a a' : Expr F} : Red R x a a' → Red R x a.neg a'.neg
  | sin {a a' : Expr F} : Red R x a a' → Red R x a.sin a'.sin
  | cos {a a' : Expr F} : Red R x a a' → Red R x a.cos a'.cos
  | exp {a a' : Expr F} : Red R x a a' → Red R x a.exp a'.exp
  | ln {a a' : Expr F} : Red R x a a' → Red R x a.ln a'.ln
  | add {a a' b b' : Expr F} : Red R x a a' → Red R x b b' → Red R x (a.add b) (a'.add b')
  | sub {a a' b b' : Expr F} : Red R x a a' → Red R x b b' → Red R x (a.sub b) (a'.sub b')
  | mul {a a' b b' : Expr F} : Red R x a a' → Red R x b b' → Red R x (a.mul b) (a'.mul b')
  | div {a a' b b' : Expr F} : Red R x a a' → Red R x b b' → Red R x (a.div b) (a'.div b')
  | pow {a a' b b' : Expr F} : Red R x a a' → Red R x b b' → Red R x (a.pow b) (a'.pow b')
  | neg_zero {n : SmartNum F} : R.real? n = some 0 → Red R x (ofNum n).neg (Expr.ofI64 0)
  | neg_neg (c : Expr F) : Red R x c.neg.neg c
  | add_zero_l {n : SmartNum F} (b : Expr F) : R.real? n = some 0 → Red R x ((ofNum n).add b) b
  | add_zero_r {n : SmartNum F} (a : Expr F) : R.real? n = some 0 → Red R x (a.add (ofNum n)) a
  | sub_zero_l {n : SmartNum F} (b : Expr F) : R.real? n = some 0 → Red R x ((ofNum n).sub b) b.neg
  | sub_zero_r {n : SmartNum F} (a : Expr F) : R.real? n = some 0 → Red R x (a.sub (ofNum n)) a
  | mul_zero_l {n : SmartNum F} (b : Expr F) : R.real? n = some 0 → Red R x ((ofNum n).mul b) (Expr.ofI64 0)
  | mul_zero_r {n : SmartNum F} (a : Expr F) : R.real? n = some 0 → Red R x (a.mul (ofNum n)) (Expr.ofI64 0)
  | mul_one_l {n : SmartNum F} (b : Expr F) : R.real? n = some 1 → Red R x ((ofNum n).mul b) b
  | mul_one_r {n : SmartNum F} (a : Expr F) : R.real? n = some 1 → Red R x (a.mul (ofNum n)) a
  | div_zero {n : SmartNum F} (b : Expr F) : R.real? n = some 0 → Red R x ((ofNum n).div b) (Expr.ofI64 0)
  | const (e : Expr F) (n : SmartNum F) : (∀ V S, R.Cov V e S → R.InNum n S) → Red R x (e.textbook x) (Expr.ofI64 0) →
      Red R x e (ofNum n)
  | exp_ln {c : Expr F} : Tree c → Red R x c.ln.exp c
  | ln_exp {c : Expr F} : Tree c → Red R x c.exp.ln c
  | cancel {e h : Expr F} {k : Env → ℝ} : Tree e → Tree h → PS e → R.Lin e h k →
      (∀ env v, denote R.real? env e = some v → k env = 1) →
      (∀ env v w, denote R.real? env e = some v → denote R.real? env h = some w → v = w) → Red R x e h

theorem Red.tree (hr : R.Red x e e') (he : Tree e) : Tree e' := by
  have z : Tree (Expr.ofI64 0 : Expr F) := .num _ trivial
  induction hr with
  | refl e => exact he
  | trans _ _ i j => exact j (i he)
  | neg _ i => exact .neg _ (i (WF.neg_iff.1 he))
  | sin _ i => exact .sin _ (i (WF.sin_iff.1 he))
  | cos _ i => exact .cos _ (i (WF.cos_iff.1 he))
  | exp _ i => exact .exp _ (i (WF.exp_iff.1 he))
  | ln _ i => exact .ln _ (i (WF.ln_iff.1 he))
  | add _ _ i j => exact .add _ _ (i (WF.add_iff.1 he).1) (j (WF.add_iff.1 he).2)
  | sub _ _ i j => exact .sub _ _ (i (WF.sub_iff.1 he).1) (j (WF.sub_iff.1 he).2)
  | mul _ _ i j => exact .mul _ _ (i (WF.mul_iff.1 he).1) (j (WF.mul_iff.1 he).2)
  | div _ _ i j => exact .div _ _ (i (WF.div_iff.1 he).1) (j (WF.div_iff.1 he).2)
  | pow _ _ i j => exact .pow _ _ (i (WF.pow_iff.1 he).1) (j (WF.pow_iff.1 he).2)
  | neg_zero => exact z
  | neg_neg c => exact WF.neg_iff.1 (WF.neg_iff.1 he)
  | add_zero_l => exact (WF.add_iff.1 he).2
  | add_zero_r => exact (WF.add_iff.1 he).1
  | sub_zero_l => exact .neg _ (WF.sub_iff.1 he).2
  | sub_zero_r => exact (WF.sub_iff.1 he).1
  | mul_zero_l | mul_zero_r | div_zero => exact z
  | mul_one_l => exact (WF.mul_iff.1 he).2
  | mul_one_r => exact (WF.mul_iff.1 he).1
  | const => exact .num _ trivial
  | exp_ln h => exact h
  | ln_exp h => exact h
  | cancel _ h => exact h

theorem Red.occurs (hr : R.Red x e e') {y : Variable} (hy : Occurs y e') : Occurs y e := by
  have z : ∀ n : SmartNum F, ¬ Occurs y (ofNum n) := fun n h => by simp [ofNum, Occurs] at h
  induction hr with
  | refl e => exact hy
  | trans _ _ i j => exact i (j hy)
  | neg _ i => rw [occurs_neg] at *; exact i hy
  | sin _ i => rw [occurs_sin] at *; exact i hy
  | cos _ i => rw [occurs_cos] at *; exact i hy
  | exp _ i => rw [occurs_exp] at *; exact i hy
  | ln _ i => rw [occurs_ln] at *; exact i hy
  | add _ _ i j => rw [occurs_add] at *; exact hy.imp i j
  | sub _ _ i j => rw [occurs_sub] at *; exact hy.imp i j
  | mul _ _ i j => rw [occurs_mul] at *; exact hy.imp i j
  | div _ _ i j => rw [occurs_div] at *; exact hy.imp i j
  | pow _ _ i j => rw [occurs_pow] at *; exact hy.imp i j
  | neg_zero => exact absurd hy (z _)
  | neg_neg c => rw [occurs_neg, occurs_neg]; exact hy
  | add_zero_l => rw [occurs_add]; exact .inr hy
  | add_zero_r => rw [occurs_add]; exact .inl hy
  | sub_zero_l => rw [occurs_neg] at hy; rw [occurs_sub]; exact .inr hy
  | sub_zero_r => rw [occurs_sub]; exact .inl hy
  | mul_zero_l | mul_zero_r | div_zero => exact absurd hy (z _)
  | mul_one_l => rw [occurs_mul]; exact .inr hy
  | mul_one_r => rw [occurs_mul]; exact .inl hy
  | const => exact absurd hy (z _)
  | exp_ln h => rw [occurs_exp, occurs_ln]; exact hy
  | ln_exp h => rw [occurs_ln, occurs_exp]; exact hy
  | cancel _ _ _ h => exact h.occurs hy

theorem InNum.value {n : SmartNum F} (h : R.InNum n S) (hn : R.real? n = some v) : v ∈ S := by
  obtain ⟨w, h1, h2, -⟩ := h
  rw [hn] at h2; cases h2; exact h1

/-- The simplifications preserve enclosures. -/
theorem Red.cov (hr : R.Red x e e') (hV : V.envs.Nonempty) (hc : R.Cov V e S) : R.Cov V e' S := by
  induction hr generalizing S with
  | refl e => exact hc
  | trans _ _ i j => exact j (i hc)
  | neg _ i => obtain ⟨S₁, w, hb⟩ := cov_neg.1 hc; exact cov_neg.2 ⟨S₁, i w, hb⟩
  | sin _ i => obtain ⟨S₁, w, hb⟩ := cov_sin.1 hc; exact cov_sin.2 ⟨S₁, i w, hb⟩
  | cos _ i => obtain ⟨S₁, w, hb⟩ := cov_cos.1 hc; exact cov_cos.2 ⟨S₁, i w, hb⟩
  | exp _ i => obtain ⟨S₁, w, hb⟩ := cov_exp.1 hc; exact cov_exp.2 ⟨S₁, i w, hb⟩
  | ln _ i => obtain ⟨S₁, w, hb⟩ := cov_ln.1 hc; exact cov_ln.2 ⟨S₁, i w, hb⟩
  | add _ _ i j => obtain ⟨S₁, S₂, w, w', hb⟩ := cov_add.1 hc; exact cov_add.2 ⟨S₁, S₂, i w, j w', hb⟩
  | sub _ _ i j => obtain ⟨S₁, S₂, w, w', hb⟩ := cov_sub.1 hc; exact cov_sub.2 ⟨S₁, S₂, i w, j w', hb⟩
  | mul _ _ i j => obtain ⟨S₁, S₂, w, w', hb⟩ := cov_mul.1 hc; exact cov_mul.2 ⟨S₁, S₂, i w, j w', hb⟩
  | div _ _ i j => obtain ⟨S₁, S₂, w, w', hb⟩ := cov_div.1 hc; exact cov_div.2 ⟨S₁, S₂, i w, j w', hb⟩
  | pow _ _ i j => obtain ⟨S₁, S₂, w, w', hb⟩ := cov_pow.1 hc; exact cov_pow.2 ⟨S₁, S₂, i w, j w', hb⟩
  | neg_zero h =>
    obtain ⟨S₁, w, hb⟩ := cov_neg.1 hc
    exact cov_zero (by simpa using hb _ ((cov_num.1 w).value h))
  | neg_neg c =>
    obtain ⟨S₁, w1, hb⟩ := cov_neg.1 hc
    obtain ⟨S₂, w2, hb2⟩ := cov_neg.1 w1
    exact w2.mono fun v hv => by simpa using hb _ (hb2 v hv (mem_blur _)) (mem_blur _)
  | add_zero_l b h =>
    obtain ⟨S₁, S₂, w, w', hb⟩ := cov_add.1 hc
    exact w'.mono fun y hy => by simpa using (hb _ ((cov_num.1 w).value h) y hy).1 (mem_blur _)
  | add_zero_r a h =>
    obtain ⟨S₁, S₂, w, w', hb⟩ := cov_add.1 hc
    exact w.mono fun y hy => by simpa using (hb y hy _ ((cov_num.1 w').value h)).1 (mem_blur _)
  | sub_zero_l b h =>
    obtain ⟨S₁, S₂, w, w', hb⟩ := cov_sub.1 hc
    exact cov_neg.2 ⟨S₂, w', fun y hy => by simpa using (hb _ ((cov_num.1 w).value h) y hy).1⟩
  | sub_zero_r a h =>
    obtain ⟨S₁, S₂, w, w', hb⟩ := cov_sub.1 hc
    exact w.mono fun y hy => by simpa using (hb y hy _ ((cov_num.1 w').value h)).1 (mem_blur _)
  | mul_zero_l b h =>
    obtain ⟨S₁, S₂, w, w', hb⟩ := cov_mul.1 hc
    obtain ⟨y, hy⟩ := w'.nonempty hV
    exact cov_zero (by simpa using (hb _ ((cov_num.1 w).value h) y hy).1)
  | mul_zero_r a h =>
    obtain ⟨S₁, S₂, w, w', hb⟩ := cov_mul.1 hc
    obtain ⟨y, hy⟩ := w.nonempty hV
    exact cov_zero (by simpa using (hb y hy _ ((cov_num.1 w').value h)).1)
  | mul_one_l b h =>
    obtain ⟨S₁, S₂, w, w', hb⟩ := cov_mul.1 hc
    exact w'.mono fun y hy => by simpa using (hb _ ((cov_num.1 w).value h) y hy).1 (mem_blur _)
  | mul_one_r a h =>
    obtain ⟨S₁, S₂, w, w', hb⟩ := cov_mul.1 hc
    exact w.mono fun y hy => by simpa using (hb y hy _ ((cov_num.1 w').value h)).1 (mem_blur _)
  | div_zero b h =>
    obtain ⟨S₁, S₂, w, w', hb⟩ := cov_div.1 hc
    obtain ⟨y, hy⟩ := w'.nonempty hV
    exact cov_zero (by simpa using (hb _ ((cov_num.1 w).value h) y hy).2.1)
  | const e n h _ => exact cov_num.2 (h _ _ hc)
  | exp_ln _ =>
    obtain ⟨S₁, w1, hb⟩ := cov_exp.1 hc
    obtain ⟨S₂, w2, hb2⟩ := cov_ln.1 w1
    refine w2.mono fun v hv => ?_
    obtain ⟨k1, k2⟩ := hb2 v hv
    have := hb _ (k2 (mem_blur _)) (mem_blur _)
    rwa [Real.exp_log k1] at this
  | ln_exp _ =>
    obtain ⟨S₁, w1, hb⟩ := cov_ln.1 hc
    obtain ⟨S₂, w2, hb2⟩ := cov_exp.1 w1
    refine w2.mono fun v hv => ?_
    simpa using (hb _ (hb2 v hv (mem_blur _))).2 (mem_blur _)
  | cancel _ _ _ hl hk hid =>
    obtain ⟨env, hV⟩ := hV
    obtain ⟨T, t1, t2⟩ := hl.cov hV hc
    obtain ⟨v, -, hv⟩ := hc.value hV
    obtain ⟨w, -, hw⟩ := t1.value hV
    have := hid _ _ _ hv hw
    subst this
    refine t1.mono fun t ht => ?_
    have := t2 t ht
    rw [hk _ _ hv, vl_eq hv, vl_eq hw] at this
    simpa using this

/-! ### the simplifications of derivatives -/

theorem z0 (R : Rounding F) : R.real? (SmartNum.ofI64 0) = some 0 := by simpa using R.real?_ofI64 0
theorem o1 (R : Rounding F) : R.real? (SmartNum.ofI64 1) = some 1 := by
  have := R.real?_ofI64 1
  rwa [show (1 : Int64).toInt = 1 from by decide, Int.cast_one] at this

section
variable (h0 : R.Red x a (Expr.ofI64 0)) (h0' : R.Red x b (Expr.ofI64 0))
include h0
theorem Red.z_neg : R.Red x a.neg (Expr.ofI64 0) := .trans (.neg h0) (.neg_zero R.z0)
theorem Red.z_mul_l (b : Expr F) : R.Red x (a.mul b) (Expr.ofI64 0) := .trans (.mul h0 (.refl _)) (.mul_zero_l _ R.z0)
theorem Red.z_mul_r (b : Expr F) : R.Red x (b.mul a) (Expr.ofI64 0) := .trans (.mul (.refl _) h0) (.mul_zero_r _ R.z0)
theorem Red.z_div (b : Expr F) : R.Red x (a.div b) (Expr.ofI64 0) := .trans (.div h0 (.refl _)) (.div_zero _ R.z0)
theorem Red.z_add_l (b : Expr F) : R.Red x (a.add b) b := .trans (.add h0 (.refl _)) (.add_zero_l _ R.z0)
theorem Red.z_add_r (b : Expr F) : R.Red x (b.add a) b := .trans (.add (.refl _) h0) (.add_zero_r _ R.z0)
theorem Red.z_sub_l (b : Expr F) : R.Red x (a.sub b) b.neg := .trans (.sub h0 (.refl _)) (.sub_zero_l _ R.z0)
theorem Red.z_sub_r (b : Expr F) : R.Red x (b.sub a) b := .trans (.sub (.refl _) h0) (.sub_zero_r _ R.z0)
include h0'
theorem Red.z_add : R.Red x (a.add b) (Expr.ofI64 0) := .trans (h0.z_add_l _) h0'
theorem Red.z_sub : R.Red x (a.sub b) (Expr.ofI64 0) := .trans (h0'.z_sub_r _) h0
end

theorem textbook_absent (he : Tree e) (hx : ¬ Occurs x e) : R.Red x (e.textbook x) (Expr.ofI64 0) := by
  induction he with
  | num n _ => rw [textbook_ofNum]; exact .refl _
  | var v => rw [textbook_other x fun h => hx ((occurs_ofVar _ _).2 h.symm)]; exact .refl _
  | neg a _ i => rw [occurs_neg] at hx; rw [textbook_neg]; exact (i hx).z_neg
  | sin a _ i => rw [occurs_sin] at hx; rw [textbook_sin]; exact (i hx).z_mul_r _
  | cos a _ i => rw [occurs_cos] at hx; rw [textbook_cos]; exact (i hx).z_mul_r _
  | exp a _ i => rw [occurs_exp] at hx; rw [textbook_exp]; exact (i hx).z_mul_l _
  | ln a _ i => rw [occurs_ln] at hx; rw [textbook_ln]; exact (i hx).z_div _
  | add a b _ _ i j => rw [occurs_add, not_or] at hx; rw [textbook_add]; exact (i hx.1).z_add (j hx.2)
  | sub a b _ _ i j => rw [occurs_sub, not_or] at hx; rw [textbook_sub]; exact (i hx.1).z_sub (j hx.2)
  | mul a b _ _ i j =>
    rw [occurs_mul, not_or] at hx; rw [textbook_mul]; exact ((i hx.1).z_mul_l _).z_add ((j hx.2).z_mul_r _)
  | div a b _ _ i j =>
    rw [occurs_div, not_or] at hx; rw [textbook_div]; exact (((i hx.1).z_mul_l _).z_sub ((j hx.2).z_mul_r _)).z_div _
  | pow a b _ _ i j =>
    rw [occurs_pow, not_or] at hx; rw [textbook_pow_const _ _ _ hx.2]; exact (((i hx.1).z_mul_r _).z_div _).z_mul_r _

theorem num_textbook (n : SmartNum F) : R.Red x ((ofNum n).textbook x) (Expr.ofI64 0) := by
  rw [textbook_ofNum]; exact .refl _

/-- The simplifications commute with derivatives. -/
theorem Red.textbook (hr : R.Red x e e') (he : Tree e) : R.Red x (e.textbook x) (e'.textbook x) := by
  have tb : ∀ {e : Expr F}, Tree e → Tree (e.textbook x) := fun h => textbook_wf trivial trivial h
  induction hr with
  | refl e => exact .refl _
  | trans h1 _ i j => exact .trans (i he) (j (h1.tree he))
  | neg _ i => rw [textbook_neg, textbook_neg]; exact .neg (i (WF.neg_iff.1 he))
  | sin h i => rw [textbook_sin, textbook_sin]; exact .mul (.cos h) (i (WF.sin_iff.1 he))
  | cos h i => rw [textbook_cos, textbook_cos]; exact .mul (.neg (.sin h)) (i (WF.cos_iff.1 he))
  | exp h i => rw [textbook_exp, textbook_exp]; exact .mul (i (WF.exp_iff.1 he)) (.exp h)
  | ln h i => rw [textbook_ln, textbook_ln]; exact .div (i (WF.ln_iff.1 he)) h
  | add _ _ i j =>
    rw [textbook_add, textbook_add]; exact .add (i (WF.add_iff.1 he).1) (j (WF.add_iff.1 he).2)
  | sub _ _ i j =>
    rw [textbook_sub, textbook_sub]; exact .sub (i (WF.sub_iff.1 he).1) (j (WF.sub_iff.1 he).2)
  | mul h h' i j =>
    rw [textbook_mul, textbook_mul]
    exact .add (.mul (i (WF.mul_iff.1 he).1) h') (.mul h (j (WF.mul_iff.1 he).2))
  | div h h' i j =>
    rw [textbook_div, textbook_div]
    exact .div (.sub (.mul (i (WF.div_iff.1 he).1) h') (.mul h (j (WF.div_iff.1 he).2))) (.mul h' h')
  | @pow a a' b b' h h' i j =>
    have w := WF.pow_iff.1 he
    by_cases hb' : Occurs x b'
    · rw [textbook_pow _ _ _ hb', textbook_pow _ _ _ (h'.occurs hb')]
      exact .mul (.pow h h') (.add (.mul (j w.2) (.ln h)) (.div (.mul h' (i w.1)) h))
    · rw [textbook_pow_const _ _ _ hb']
      by_cases hb : Occurs x b
      · rw [textbook_pow _ _ _ hb]
        refine .mul (.pow h h') (.trans ?_ (.div (.mul h' (i w.1)) h))
        exact ((Red.trans (j w.2) (textbook_absent (h'.tree w.2) hb')).z_mul_l _).z_add_l _
      · rw [textbook_pow_const _ _ _ hb]
        exact .mul (.pow h h') (.div (.mul h' (i w.1)) h)
  | neg_zero h => rw [textbook_neg, textbook_ofI64]; exact (num_textbook _).z_neg
  | neg_neg c => rw [textbook_neg, textbook_neg]; exact .neg_neg _
  | add_zero_l b h => rw [textbook_add]; exact (num_textbook _).z_add_l _
  | add_zero_r b h => rw [textbook_add]; exact (num_textbook _).z_add_r _
  | sub_zero_l b h => rw [textbook_sub, textbook_neg]; exact (num_textbook _).z_sub_l _
  | sub_zero_r b h => rw [textbook_sub]; exact (num_textbook _).z_sub_r _
  | mul_zero_l b h =>
    rw [textbook_mul, textbook_ofI64]; exact ((num_textbook _).z_mul_l _).z_add (.mul_zero_l _ h)
  | mul_zero_r b h =>
    rw [textbook_mul, textbook_ofI64]; exact Red.z_add (.mul_zero_r _ h) ((num_textbook _).z_mul_r _)
  | mul_one_l b h => rw [textbook_mul]; exact .trans (((num_textbook _).z_mul_l _).z_add_l _) (.mul_one_l _ h)
  | mul_one_r b h => rw [textbook_mul]; exact .trans (((num_textbook _).z_mul_r _).z_add_r _) (.mul_one_r _ h)
  | div_zero b h =>
    rw [textbook_div, textbook_ofI64]
    exact (Red.z_sub ((num_textbook _).z_mul_l _) (.mul_zero_l _ h)).z_div _
  | const e n _ h => rw [textbook_ofNum]; exact h
  | @exp_ln c h =>
    rw [textbook_exp, textbook_ln]
    refine .cancel (k := fun env => 1 / R.vl env c * R.vl env c.ln.exp)
      (.mul _ _ (.div _ _ (tb h) h) (.exp _ (.ln _ h))) (tb h) (.mul _ _) (.mul_l (.div (.hole _))) ?_ ?_
    · intro env v hv
      obtain ⟨p, q, hp, hq, -⟩ := denote_mul.1 hv
      obtain ⟨l, hl, rfl⟩ := denote_exp.1 hq
      obtain ⟨u, hu, hu0, rfl⟩ := denote_ln.1 hl
      beta_reduce
      rw [vl_eq hu, vl_eq hq, Real.exp_log hu0]
      field_simp
    · intro env v w hv hw
      obtain ⟨p, q, hp, hq, rfl⟩ := denote_mul.1 hv
      obtain ⟨l, hl, rfl⟩ := denote_exp.1 hq
      obtain ⟨u, hu, hu0, rfl⟩ := denote_ln.1 hl
      obtain ⟨d, u', hd, hu', -, rfl⟩ := denote_div.1 hp
      rw [hu] at hu'; cases hu'
      rw [hw] at hd; cases hd
      rw [Real.exp_log hu0]
      field_simp
  | @ln_exp c h =>
    rw [textbook_ln, textbook_exp]
    refine .cancel (k := fun env => 1 * R.vl env c.exp / R.vl env c.exp)
      (.div _ _ (.mul _ _ (tb h) (.exp _ h)) (.exp _ h)) (tb h) (.div _ _) (.div (.mul_l (.hole _))) ?_ ?_
    · intro env v hv
      obtain ⟨p, q, hp, hq, hq0, -⟩ := denote_div.1 hv
      beta_reduce
      rw [vl_eq hq]
      field_simp
    · intro env v w hv hw
      obtain ⟨p, q, hp, hq, hq0, rfl⟩ := denote_div.1 hv
      obtain ⟨d, q', hd, hq', rfl⟩ := denote_mul.1 hp
      rw [hq] at hq'; cases hq'
      rw [hw] at hd; cases hd
      field_simp
  | @cancel e h k te th hp hl hk hid =>
    refine .cancel (tb te) (tb th) (hp.textbook x) (hl.textbook x) (fun env v hv => ?_) fun env v w hv hw => ?_
    · obtain ⟨u, hu⟩ := hp.defined hv
      exact hk env u hu
    · obtain ⟨u, hu⟩ := hp.defined hv
      obtain ⟨u', hu'⟩ := hl.defined hu
      obtain ⟨g, g1, g2⟩ := textbook_hasDerivative R.z0 R.o1 te hu hv
      obtain ⟨g', g1', g2'⟩ := textbook_hasDerivative R.z0 R.o1 th hu' hw
      refine g2.unique (g2'.congr_of_eventuallyEq ?_)
      filter_upwards [g1, g1'] with t ht ht' using hid _ _ _ ht ht'

end Rounding
end SymRust
