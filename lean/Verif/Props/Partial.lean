import Verif.Proofs.Chain
import Verif.Props.Semantics
import Verif.Props.Main
/-! # Derivatives by several variables (C59), the chain rule (C60) -/

namespace SymRust
variable {F : Type} [FloatOps F]
open Expr Filter Topology

theorem partials_lift {m : Mode} {xs : List Variable} {a : Expr F} {e : Expr (F × ℝ)} (he : WF SmartNum.Valid e)
    (h : partials m (e.map Prod.fst) xs = .ok a) :
    ∃ d, partials m e xs = .ok d ∧ d.map Prod.fst = a ∧ WF SmartNum.Valid d := by
  induction xs generalizing e with
  | nil => cases h; exact ⟨e, rfl, rfl, he⟩
  | cons x xs ih =>
    simp only [partials] at h ⊢
    rw [derivative_map fstHom m x he.tree] at h
    cases hd : e.derivative m x with
    | ok d =>
      rw [hd] at h
      exact ih ((der_of_derivative he.tree hd).wf (numClosed_valid m) he) h
    | err r => rw [hd] at h; cases h
    | panic => rw [hd] at h; cases h

/-- C59: differentiating by several variables in turn gives an expression that stands for the corresponding partial
derivative of the function of the expression. -/
theorem C59_partials (m : Mode) (e a : Expr F) (he : Built m e) (xs : List Variable) (E : Set Env)
    (hs : SafeD SmartNum.exactReal E e) (h : partials .strict e xs = .ok a) (env : Env) (r : ℝ)
    (hr : denote SmartNum.exactReal env e = some r) (hp : ∀ x ∈ xs, PowOK SmartNum.exactReal env x e) :
    StandsFor env a (partialsBy xs (fnAll SmartNum.exactReal e) env) := by
  rw [← map_lift he.valid] at h
  obtain ⟨d, h1, rfl, h3⟩ := partials_lift (wf_lift he.valid) h
  have hf : fnAll SmartNum.value? e.lift = fnAll SmartNum.exactReal e := by
    funext env'; unfold fnAll; rw [denote_lift_eq he.valid hr]
  rcases xs with _ | ⟨x, xs⟩
  · cases h1
    refine denote_down h3 ?_
    rw [denote_lift he.valid.tree hr]
    simp [partialsBy, fnAll, hr]
  · refine denote_down h3 ?_
    have := partials_value (S := {y | y ∈ x :: xs}) (fun _ h => h) (wf_lift he.valid)
      (hs.lift (E' := E) subset_rfl he.valid.tree) h1 env
      ⟨⟨r, denote_lift he.valid.tree hr⟩, powOKs_of (fun y hy => (hp y hy).lift he.valid.tree) ⟨x, by simp⟩⟩
    rw [this, hf]

/-- C59: the order in which one differentiates by several variables does not change the value of the result. -/
theorem C59_order_irrelevant (m : Mode) (e a b : Expr F) (he : Built m e) (xs ys : List Variable) (hperm : xs.Perm ys)
    (E : Set Env) (hs : SafeD SmartNum.exactReal E e) (ha : partials .strict e xs = .ok a)
    (hb : partials .strict e ys = .ok b) (env : Env) (r : ℝ)
    (hr : denote SmartNum.exactReal env e = some r) (hp : ∀ x ∈ xs, PowOK SmartNum.exactReal env x e) :
    ∃ d, StandsFor env a d ∧ StandsFor env b d := by
  refine ⟨partialsBy xs (fnAll SmartNum.exactReal e) env, C59_partials m e a he xs E hs ha env r hr hp, ?_⟩
  have := C59_partials m e b he ys E hs hb env r hr fun x hx => hp x (hperm.mem_iff.2 hx)
  rcases xs with _ | ⟨x, xs⟩
  · obtain rfl := hperm.nil_eq
    exact this
  · rw [partialsBy_perm he.tree hperm ⟨⟨r, hr⟩, powOKs_of (fun y hy => hp y hy) ⟨x, by simp⟩⟩]
    exact this

/-- C59: an instance: x*sin(y)/(z*y+1) by x, y, z and by z, y, x: the results differ as expressions, and the
hypotheses hold at the assignment that sets all variables to 1. -/
theorem C59_example :
    let x : Expr Unit := newVariable "x"
    let y : Expr Unit := newVariable "y"
    let z : Expr Unit := newVariable "z"
    let e := (x.mul y.sin).div ((z.mul y).add (ofI64 1))
    (∃ a b, partials .strict e [⟨"x"⟩, ⟨"y"⟩, ⟨"z"⟩] = .ok a ∧ partials .strict e [⟨"z"⟩, ⟨"y"⟩, ⟨"x"⟩] = .ok b ∧ a ≠ b) ∧
      Built .debug e ∧ SafeD SmartNum.exactReal Set.univ e ∧ (∀ env v, PowOK SmartNum.exactReal env v e) ∧
      denote SmartNum.exactReal (fun _ => 1) e = some (1 * Real.sin 1 / (1 * 1 + 1)) := by
  intro x y z e
  refine ⟨?_, ?_, ?_, ?_, ?_⟩
  · have key : (match partials .strict e [⟨"x"⟩, ⟨"y"⟩, ⟨"z"⟩], partials .strict e [⟨"z"⟩, ⟨"y"⟩, ⟨"x"⟩] with
        | .ok a, .ok b => decide (a ≠ b)
        | _, _ => false) = true := by decide +kernel
    split at key
    · rename_i a b ha hb
      exact ⟨a, b, ha, hb, by simpa using key⟩
    · cases key
  · exact .div _ _ (.mul _ _ (.var _) (.sin _ (.var _))) (.add _ _ (.mul _ _ (.var _) (.var _)) (.num _ (.ofI64 1)))
  · have hv := fun v => safeD_ofVar (F := Unit) (ν := SmartNum.exactReal) (E := Set.univ) v
    exact safeD_div.2 ⟨safeD_mul.2 ⟨hv _, safeD_sin.2 ⟨avoids_var _ _, hv _⟩⟩,
      safeD_add.2 ⟨safeD_mul.2 ⟨hv _, hv _⟩, safeD_ofNum _⟩⟩
  · intro env v
    have hv := fun w => powAll_ofVar (F := Unit)
      (Q := fun a b => ∃ u, denote SmartNum.exactReal env a = some u ∧ (0 < u ∨ (u ≠ 0 ∧ ¬ Occurs v b))) w
    exact powAll_div.2 ⟨powAll_mul.2 ⟨hv _, powAll_sin.2 (hv _)⟩, powAll_add.2 ⟨powAll_mul.2 ⟨hv _, hv _⟩, powAll_ofNum _⟩⟩
  · have h1 : denote SmartNum.exactReal (fun _ => 1) (ofI64 1 : Expr Unit) = some 1 := by
      rw [denote_int]; simp [show (1 : Int64).toInt = 1 by decide]
    have hv : ∀ n, denote SmartNum.exactReal (fun _ => 1) (newVariable n : Expr Unit) = some 1 := fun n => rfl
    exact denote_div.2 ⟨_, _, denote_mul.2 ⟨_, _, hv _, denote_sin.2 ⟨_, hv _, rfl⟩, rfl⟩,
      denote_add.2 ⟨_, _, denote_mul.2 ⟨_, _, hv _, hv _, rfl⟩, h1, rfl⟩, by norm_num, rfl⟩

/-- C60: the chain rule: differentiating `e` with `v` put for `y` by another variable `x` gives the value of
∂e/∂x + ∂e/∂y · dv/dx, the partial derivatives taken with `y` at the value of `v`. -/
theorem C60_chain (m : Mode) (e v s ds ex ey dv : Expr F) (he : Built m e) (hv : Built m v) (x y : Variable)
    (hxy : x ≠ y) (h1 : e.substitute y v = .ok s) (h2 : s.derivative .strict x = .ok ds)
    (h3 : e.derivative .strict x = .ok ex) (h4 : e.derivative .strict y = .ok ey)
    (h5 : v.derivative .strict x = .ok dv)
    (hs : SafeD SmartNum.exactReal (AtPoint SmartNum.exactReal y v) e) (hsv : SafeD SmartNum.exactReal Set.univ v)
    (hl : NoLnIntoBase y v e) (env : Env) (p r : ℝ) (hpt : denote SmartNum.exactReal env v = some p)
    (hr : denote SmartNum.exactReal (env.set y p) e = some r)
    (hpx : PowOK SmartNum.exactReal (env.set y p) x e) (hpy : PowOK SmartNum.exactReal (env.set y p) y e)
    (hpv : PowOK SmartNum.exactReal env x v) :
    ∃ a b c, StandsFor (env.set y p) ex a ∧ StandsFor (env.set y p) ey b ∧ StandsFor env dv c ∧
      StandsFor env ds (a + b * c) := by
  obtain ⟨a, a1, a2⟩ := C30_derivative m e ex he x _ hs h3 _ r hr hpx
  obtain ⟨b, b1, b2⟩ := C30_derivative m e ey he y _ hs h4 _ r hr hpy
  obtain ⟨c, c1, c2⟩ := C30_derivative m v dv hv x _ hsv h5 _ p hpt hpv
  rw [substitute_eq] at h1
  cases h1
  have bs : Built m (e.replace y v) := WF.replace he hv y
  obtain ⟨d, d1, d2⟩ := C30_derivative m _ ds bs x _ (SafeD.replace he.tree hs hsv hl) h2 env r
    (by rw [denote_replace he.tree hpt]; exact hr) (PowOK.replace he.tree hpt hpx hpy hpv)
  refine ⟨a, b, c, a2, b2, c2, ?_⟩
  rw [d1.unique (hasDerivative_chain he.tree hxy hpt hr hpx hpy a1 b1 c1)] at d2
  exact d2

/-- C60: the chain rule where the variable put for is the one differentiated by: e'(v)·v'. -/
theorem C60_chain_same (m : Mode) (e v s ds ex dv : Expr F) (he : Built m e) (hv : Built m v) (x : Variable)
    (h1 : e.substitute x v = .ok s) (h2 : s.derivative .strict x = .ok ds)
    (h3 : e.derivative .strict x = .ok ex) (h5 : v.derivative .strict x = .ok dv)
    (hs : SafeD SmartNum.exactReal (AtPoint SmartNum.exactReal x v) e) (hsv : SafeD SmartNum.exactReal Set.univ v)
    (hl : NoLnIntoBase x v e) (env : Env) (p r : ℝ) (hpt : denote SmartNum.exactReal env v = some p)
    (hr : denote SmartNum.exactReal (env.set x p) e = some r)
    (hpx : PowOK SmartNum.exactReal (env.set x p) x e) (hpv : PowOK SmartNum.exactReal env x v) :
    ∃ b c, StandsFor (env.set x p) ex b ∧ StandsFor env dv c ∧ StandsFor env ds (b * c) := by
  obtain ⟨b, b1, b2⟩ := C30_derivative m e ex he x _ hs h3 _ r hr hpx
  obtain ⟨c, c1, c2⟩ := C30_derivative m v dv hv x _ hsv h5 _ p hpt hpv
  rw [substitute_eq] at h1
  cases h1
  have bs : Built m (e.replace x v) := WF.replace he hv x
  obtain ⟨d, d1, d2⟩ := C30_derivative m _ ds bs x _ (SafeD.replace he.tree hs hsv hl) h2 env r
    (by rw [denote_replace he.tree hpt]; exact hr) (PowOK.replace he.tree hpt hpx hpx hpv)
  refine ⟨b, c, b2, c2, ?_⟩
  rw [d1.unique (hasDerivative_chain_same he.tree hpt b1 c1)] at d2
  exact d2

/-- C60: an instance, with x*exp(y) for `e` and x*x for `v`: all five operations succeed and the hypotheses hold at every
assignment. -/
theorem C60_example (env : Env) :
    let x : Expr F := newVariable "x"
    let y : Expr F := newVariable "y"
    let e := x.mul y.exp
    let v := x.mul x
    (∃ s ds ex ey dv, e.substitute ⟨"y"⟩ v = .ok s ∧ s.derivative .strict ⟨"x"⟩ = .ok ds ∧
      e.derivative .strict ⟨"x"⟩ = .ok ex ∧ e.derivative .strict ⟨"y"⟩ = .ok ey ∧ v.derivative .strict ⟨"x"⟩ = .ok dv ∧
      ds = (v.exp.add (x.mul ((x.add x).mul v.exp))) ∧ ex = y.exp ∧ ey = x.mul y.exp ∧ dv = x.add x) ∧
    Built .debug e ∧ Built .debug v ∧ SafeD SmartNum.exactReal (AtPoint SmartNum.exactReal ⟨"y"⟩ v) e ∧
    SafeD SmartNum.exactReal Set.univ v ∧ NoLnIntoBase ⟨"y"⟩ v e ∧
    denote SmartNum.exactReal env v = some (env ⟨"x"⟩ * env ⟨"x"⟩) ∧
    (∃ r, denote SmartNum.exactReal (env.set ⟨"y"⟩ (env ⟨"x"⟩ * env ⟨"x"⟩)) e = some r) ∧
    ∀ env' w, PowOK SmartNum.exactReal env' w e ∧ PowOK SmartNum.exactReal env' w v := by
  intro x y e v
  have hv := fun (E : Set Env) v => safeD_ofVar (F := F) (ν := SmartNum.exactReal) (E := E) v
  have hpow : Everywhere (fun s : Expr F => ∀ a b : Expr F, s ≠ a.pow b) e := by
    have l1 : ∀ v : Variable, Everywhere (fun s : Expr F => ∀ a b : Expr F, s ≠ a.pow b) (ofVar v) :=
      fun v => everywhere_ofVar.2 fun a b h => by expr_inj at h
    exact everywhere_mul.2 ⟨fun a b h => by expr_inj at h, l1 _, everywhere_exp.2 ⟨fun a b h => by expr_inj at h, l1 _⟩⟩
  refine ⟨⟨_, _, _, _, _, substitute_eq _ _ _, ?_, ?_, ?_, ?_, rfl, rfl, rfl, rfl⟩,
    .mul _ _ (.var _) (.exp _ (.var _)), .mul _ _ (.var _) (.var _),
    safeD_mul.2 ⟨hv _ _, safeD_exp.2 (hv _ _)⟩, safeD_mul.2 ⟨hv _ _, hv _ _⟩,
    fun a b h => absurd rfl (hpow _ h a b), denote_mul.2 ⟨_, _, rfl, rfl, rfl⟩,
    ⟨_, denote_mul.2 ⟨_, _, rfl, denote_exp.2 ⟨_, rfl, rfl⟩, rfl⟩⟩, fun env' w => ?_⟩
  · krfl
  · krfl
  · krfl
  · krfl
  · have hq := fun u => powAll_ofVar (F := F)
      (Q := fun a b => ∃ u, denote SmartNum.exactReal env' a = some u ∧ (0 < u ∨ (u ≠ 0 ∧ ¬ Occurs w b))) u
    exact ⟨powAll_mul.2 ⟨hq _, powAll_exp.2 (hq _)⟩, powAll_mul.2 ⟨hq _, hq _⟩⟩

end SymRust
