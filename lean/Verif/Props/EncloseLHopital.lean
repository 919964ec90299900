import Verif.Proofs.EncloseLHopital
import Verif.Props.EncloseLimit
import Verif.Spec.LimitEnclose
/-! # Rounding errors of limits with L'Hôpital steps: property C66 -/

namespace SymRust
variable {F : Type} [FloatOps F] (R : Rounding F)
open Expr Rounding Filter Topology

variable {R}
theorem Rounding.Quotable.trigAll {m : Mode} {env : Env} {x : Variable} {pt e : Expr F} {p : ℝ}
    (h : R.Quotable m env x pt p e) (h0 : pt.isZero = true) : TrigAll (Vanishes x) e := by
  rintro s hs a (rfl | rfl)
  · exact h.trig h0 a (.inl hs)
  · exact h.trig h0 a (.inr hs)

theorem Rounding.Quotable.regular {m : Mode} {env : Env} {x : Variable} {pt e : Expr F} {p : ℝ}
    (hpt : WF SmartNum.Valid pt) (hp : denote R.real? env pt = some p) (h : R.Quotable m env x pt p e) :
    Regular env x (R.lift pt) p (R.lift e) ∧ fn SmartNum.value? env x (R.lift e) = fn R.real? env x e := by
  obtain ⟨r, hr⟩ := h.value
  have w := h.built.valid
  refine ⟨⟨wf_lift w, safeD_lift (atPoint_lift hpt.tree) w.tree (h.clear.safeD_at hpt w), ln_lift w.tree h.ln,
    ⟨r, denote_lift w.tree hr⟩, powOK_lift w.tree h.pow, fun h0 => ?_⟩, fn_lift w hr env x⟩
  rw [Rounding.isZero_lift hpt] at h0
  exact trigAll_lift w.tree (trig_sinZero w (h.trigAll h0) (by rw [zero_point hpt h0 hp, Env.set_same]) hr)

/-- One operand after `i` L'Hôpital steps. -/
theorem Rounding.Quotable.step {m : Mode} {env : Env} {x : Variable} {pt e : Expr F} {p : ℝ} {V : Ranges} {T S : Set ℝ}
    (hpt : WF SmartNum.Valid pt) (hsp : R.Clear Set.univ pt) (cT : R.Cov V pt T) (hV : env ∈ V.envs)
    (hp : denote R.real? env pt = some p) (h : R.Quotable m env x pt p e) (i : Nat) {d : Expr F}
    (hd : nthDerivative .strict e x i = .ok d) (hS : R.Cov (V.set x T) (e.textbookN x i) S) {k : UInt64} {n : Nat}
    {z : LimitExpression F} (hz : limit .strict x pt k n d = .ok z) :
    MeansC R V S z ∧ iteratedDeriv i (fn R.real? env x e) p ∈ S := by
  have w := h.built.valid
  have hpT : p ∈ T := by
    obtain ⟨v, h1, h2⟩ := cT.value hV
    rw [hp] at h2; cases h2; exact h1
  have hpe := env_set_mem hV hpT x
  obtain ⟨wd, cd, rd⟩ := nthDerivative_red w (h.clear.clearC_at hpt w) hd
  obtain ⟨-, ld⟩ := nthDerivative_lnOK w.tree (v := pt) (by
    rintro s hs a b rfl hx
    exact noLn_iff.1 (h.ln a b hs hx)) i hd
  have covd := rd.cov ⟨_, hpe⟩ hS
  obtain ⟨v, hv, hv'⟩ := covd.value hpe
  refine ⟨limit_meansC cT hpt (hsp.clearC hpt) hV hp wd cd ld covd (fun h0 => ?_) hz, ?_⟩
  · have ht := (nthDerivative_trigV (fun a a' h w q => h.vanishes w q) w (h.trigAll h0) i hd).1
    have := trig_sinZero wd ht (env := env.set x p) (by rw [zero_point hpt h0 hp, Env.set_same]) hv'
    exact fun s hs a ha => this s hs a (.inl ha)
  · obtain ⟨r, hr⟩ := h.value
    obtain ⟨v, hv, hv'⟩ := hS.value hpe
    have hfn : fn R.real? (env.set x p) x e = fn R.real? env x e := by funext t; simp [fn]
    have := (textbook_iterated R.z0 R.o1 w.tree hr hv').1
    rw [hfn, Env.set_same] at this
    rw [this]; exact hv

/-- C66, with the strong form of "lies in `S`". -/
theorem Rounding.quotient_meansC (m m' : Mode) (l r pt : Expr F) (hpt : Built m' pt) (x : Variable) (k : UInt64)
    (z : LimitExpression F) (h : LimitIs .strict (l.div r) x pt k z) (hsp : R.Clear Set.univ pt)
    (V : Ranges) (T : Set ℝ) (hT : R.Encloses V pt T) (env : Env) (hV : env ∈ V.envs) (p : ℝ)
    (hp : denote R.real? env pt = some p) (hl : R.Quotable m env x pt p l) (hr : R.Quotable m env x pt p r) :
    ∃ i ≤ k.toNat, (∀ j < i, iteratedDeriv j (fn R.real? env x l) p = 0 ∧
        iteratedDeriv j (fn R.real? env x r) p = 0) ∧
      (∃ dl dr a b, nthDerivative .strict l x i = .ok dl ∧ nthDerivative .strict r x i = .ok dr ∧
        LimitIs .strict dl x pt k a ∧ LimitIs .strict dr x pt k b ∧ (a.div b).isSome) ∧
      ∀ S, R.Encloses (V.set x T) ((l.textbookN x i).div (r.textbookN x i)) S →
        ∃ w ∈ S, w = iteratedDeriv i (fn R.real? env x l) p / iteratedDeriv i (fn R.real? env x r) p ∧
          Tendsto (fun t => fn R.real? env x l t / fn R.real? env x r t) (𝓝[≠] p) (𝓝 w) ∧
          MeansC R V S z ∧ (z = .infinitesimal → w = 0) := by
  have wp : WF SmartNum.Valid pt := hpt.mono fun _ hn => hn.valid
  have wl := hl.built.valid
  have wr := hr.built.valid
  have cT := hT.cov wp
  obtain ⟨n, h⟩ := h
  obtain ⟨d, h1, rfl, h2⟩ := Rounding.limit_lift R (.div _ _ wl wr) wp h
  obtain ⟨rl, fl⟩ := hl.regular wp hp
  obtain ⟨rr, fr⟩ := hr.regular wp hp
  obtain ⟨i, hi, li, ri, a, b, dl, dr, la, lb, ma, mb, ⟨w, hw, hf⟩, h0⟩ := lhopital_steps (l := R.lift l) (r := R.lift r)
    (Rounding.denote_lift wp.tree hp) (Rounding.wf_lift wp) (safe_lift (E' := Set.univ) subset_rfl wp.tree (hsp.safe_univ wp)) rl rr
    (by simpa [Rounding.lift] using h1)
  rw [fl, fr] at h0
  obtain ⟨dl', wli⟩ := nthDerivative_down wl i dl
  obtain ⟨dr', wri⟩ := nthDerivative_down wr i dr
  refine ⟨i, hi, h0, ⟨_, _, _, _, dl', dr', ⟨_, limit_down wp wli la⟩, ⟨_, limit_down wp wri lb⟩, ?_⟩, fun S hS => ?_⟩
  · rw [LimitExpression.div_map, hw]; rfl
  have wn : ∀ {e : Expr F}, WF SmartNum.Valid e → WF SmartNum.Valid (e.textbookN x i) := fun he =>
    textbookN_wf (SmartNum.valid_ofI64 0) (SmartNum.valid_ofI64 1) he i
  obtain ⟨S₁, S₂, c1, c2, hq⟩ := cov_div.1 (hS.cov (.div _ _ (wn wl) (wn wr)))
  obtain ⟨mA, vl⟩ := hl.step wp hsp cT hV hp i dl' c1 (limit_down wp wli la)
  obtain ⟨mB, vr⟩ := hr.step wp hsp cT hV hp i dr' c2 (limit_down wp wri lb)
  obtain ⟨hn, hin, -⟩ := hq _ vl _ vr
  have hn' : iteratedDeriv i (fn SmartNum.value? env x (R.lift r)) p ≠ 0 := by rw [fr]; exact hn
  have ht := quotient_tendsto rl rr (by rw [fl, fr]; exact h0) hn'
  rw [fl, fr] at ht
  refine ⟨_, hin (mem_blur _), rfl, ht, ?_⟩
  obtain ⟨w1, hw1, hm1⟩ := div_means ma mb hn'
  rw [hw] at hw1; cases hw1
  have hm0 := hm1
  have hm1 := finish_means hm1 hf
  obtain ⟨w2, hw2, hm2⟩ := div_meansC ⟨env, hV⟩ mA mB hq
  have hm : MeansC R V S (d.map Prod.fst) := by
    rw [LimitExpression.div_map, hw] at hw2
    cases hw2
    refine finish_meansC ⟨env, hV⟩ hm2 ?_
    have := finish_map fstHom .strict (z := w) (by
      cases w with
      | normal c => exact hm0.2.2.tree
      | _ => trivial)
    rw [hf] at this
    exact this
  rw [fl, fr] at hm1
  refine ⟨hm, fun hz => ?_⟩
  cases d with
  | infinitesimal => exact hm1
  | _ => cases hz

/-- C66: a successful limit of a quotient stops after the number `i ≤ order_try` of L'Hôpital steps at which the answers
for the derivatives of dividend and divisor can be divided; exactly, all lower derivatives of dividend and divisor vanish
at the point.  For every enclosure `S` of the quotient of the `i`-th
derivatives by the textbook rules, the variable ranging over an enclosure of the point, the true limit `w` exists and
lies in `S`, and the answer is Infinitesimal with `w = 0`, or a Normal in `S` (so is its `to_f64` if it is a number). -/
theorem C66_rounding (m m' : Mode) (l r pt : Expr F) (hpt : Built m' pt) (x : Variable) (k : UInt64)
    (z : LimitExpression F) (h : LimitIs .strict (l.div r) x pt k z) (hsp : R.Clear Set.univ pt)
    (V : Ranges) (T : Set ℝ) (hT : R.Encloses V pt T) (env : Env) (hV : env ∈ V.envs) (p : ℝ)
    (hp : denote R.real? env pt = some p) (hl : R.Quotable m env x pt p l) (hr : R.Quotable m env x pt p r) :
    ∃ i ≤ k.toNat, (∀ j < i, iteratedDeriv j (fn R.real? env x l) p = 0 ∧
        iteratedDeriv j (fn R.real? env x r) p = 0) ∧
      (∃ dl dr a b, nthDerivative .strict l x i = .ok dl ∧ nthDerivative .strict r x i = .ok dr ∧
        LimitIs .strict dl x pt k a ∧ LimitIs .strict dr x pt k b ∧ (a.div b).isSome) ∧
      ∀ S, R.Encloses (V.set x T) ((l.textbookN x i).div (r.textbookN x i)) S →
        ∃ w ∈ S, w = iteratedDeriv i (fn R.real? env x l) p / iteratedDeriv i (fn R.real? env x r) p ∧
          Tendsto (fun t => fn R.real? env x l t / fn R.real? env x r t) (𝓝[≠] p) (𝓝 w) ∧
          ((z = .infinitesimal ∧ w = 0) ∨ ∃ c, z = .normal c ∧ (∃ v ∈ S, denote R.real? env c = some v) ∧
            ∀ n, c = ofNum n → ∃ f ∈ S, R.val n.toF64 = some f) := by
  obtain ⟨i, hi, h0, hs, hS⟩ := Rounding.quotient_meansC m m' l r pt hpt x k z h hsp V T hT env hV p hp hl hr
  refine ⟨i, hi, h0, hs, fun S hE => ?_⟩
  obtain ⟨w, hw, e, ht, hm, hz⟩ := hS S hE
  refine ⟨w, hw, e, ht, ?_⟩
  cases z with
  | infinitesimal => exact .inl ⟨rfl, hz rfl⟩
  | normal c => exact .inr ⟨_, rfl, hm.1.results hV⟩
  | _ => exact hm.elim

/-- C66 for arithmetic expressions at a number: for the quotient of the `i`-th derivatives by the textbook rules at the
point, with exact value `w`, `K` operations and value `A` without cancellation, `w` is the true limit, and the answer is
Infinitesimal with `w = 0` or a number whose float is within `14 u K A` of `w`. -/
theorem C66_arithmetic (m m' : Mode) (l r : Expr F) (v : SmartNum F) (hv : v.Reachable m') (x : Variable)
    (bl : Built m l) (br : Built m r) (al : Arithmetic x l) (ar : Arithmetic x r) (k : UInt64)
    (z : LimitExpression F) (h : LimitIs .strict (l.div r) x (ofNum v) k z) (env : Env) (p : ℝ) (hp : R.real? v = some p)
    (hl : ∃ s, denote R.real? (env.set x p) l = some s) (hr : ∃ s, denote R.real? (env.set x p) r = some s) :
    ∃ i ≤ k.toNat, (∀ j < i, iteratedDeriv j (fn R.real? env x l) p = 0 ∧
        iteratedDeriv j (fn R.real? env x r) p = 0) ∧
      ∀ w A K, R.Arith (((l.textbookN x i).div (r.textbookN x i)).replace x (ofNum v)) w A K → 27 * R.u * K ≤ 1 →
        Tendsto (fun t => fn R.real? env x l t / fn R.real? env x r t) (𝓝[≠] p) (𝓝 w) ∧
        ((z = .infinitesimal ∧ w = 0) ∨
          ∃ c f, z = .normal (ofNum c) ∧ R.val c.toF64 = some f ∧ |f - w| ≤ 14 * R.u * K * A) := by
  have q : ∀ {e}, Built m e → Arithmetic x e → (∃ s, denote R.real? (env.set x p) e = some s) →
      R.Quotable m env x (ofNum v) p e := fun {e} he ha hs => by
    obtain ⟨tr, nf, ox⟩ := ha.facts
    exact ⟨he, hs, nf.clear R _, fun a b hab => absurd rfl ((nf _ hab).pow a b),
      fun s hs a b hab => absurd hab ((nf s hs).pow a b), fun _ a ha =>
      ha.elim (fun h => absurd rfl ((nf _ h).sin a)) (fun h => absurd rfl ((nf _ h).cos a))⟩
  obtain ⟨i, hi, h0, -, hS⟩ := C66_rounding (R := R) m m' l r (ofNum v) (.num _ hv) x k z h ((noFn_ofNum v).clear R _)
    (point env) (R.blur p) (.num v p _ hp subset_rfl) env (mem_point env) p (by rw [denote_ofNum]; exact hp)
    (q bl al hl) (q br ar hr)
  refine ⟨i, hi, h0, fun w A K hA hK => ?_⟩
  have tq : Tree ((l.textbookN x i).div (r.textbookN x i)) := .div _ _ (textbookN_tree al.facts.1 i) (textbookN_tree ar.facts.1 i)
  obtain ⟨E, hw, hE⟩ := hA.within env hK
  have hA' : (R.grow K - 1) * A ≤ 14 * R.u * K * A :=
    mul_le_mul_of_nonneg_right (by have := grow_le hK; linarith) ((abs_nonneg w).trans hA.abs_le.1)
  have hE := hE.trans hA'
  obtain ⟨w', -, hw', ht, hz⟩ := hS _ (hw.encloses.unreplace tq hp)
  have hww : w' = w := by
    have hd := hw.denote
    rw [denote_replace tq (by rw [denote_ofNum]; exact hp)] at hd
    obtain ⟨u1, u2, hu1, hu2, hne, rfl⟩ := denote_div.1 hd
    obtain ⟨s1, hs1⟩ := hl
    obtain ⟨s2, hs2⟩ := hr
    have hfn : ∀ e : Expr F, fn R.real? (env.set x p) x e = fn R.real? env x e := fun e => by funext t; simp [fn]
    have e1 := (textbook_iterated R.z0 R.o1 al.facts.1 hs1 hu1).1
    have e2 := (textbook_iterated R.z0 R.o1 ar.facts.1 hs2 hu2).1
    rw [hfn, Env.set_same] at e1 e2
    rw [hw', e1, e2]
  subst hww
  refine ⟨ht, hz.imp id ?_⟩
  rintro ⟨c, rfl, -, hf⟩
  obtain ⟨n, hn⟩ := h
  obtain ⟨c, rfl⟩ := limit_number (in_div.2 ⟨al.facts, ar.facts⟩) hn
  obtain ⟨f, h1, h2⟩ := hf c rfl
  exact ⟨c, f, rfl, h2, le_trans h1 hE⟩

/-- The dividend and divisor of `C66_example`. -/
def sinPi : Expr Float.Model := (Expr.pi.mul (newVariable "x")).sin
def threeX : Expr Float.Model := (Expr.ofI64 3).mul (newVariable "x")

/-- The facts about them that the examples of C66 and C76 use. -/
theorem sinPi_facts (env : Env) :
    F64.rounding.Quotable .strict env ⟨"x"⟩ zero 0 sinPi ∧ F64.rounding.Quotable .strict env ⟨"x"⟩ zero 0 threeX ∧
    ∃ E ≤ (2⁻¹ : ℝ) ^ 30, F64.rounding.Encloses ((point env).set ⟨"x"⟩ (F64.rounding.blur 0))
      ((sinPi.textbookN ⟨"x"⟩ 1).div (threeX.textbookN ⟨"x"⟩ 1)) {z | |z - Real.pi / 3| ≤ E} := by
  set R := F64.rounding with hR
  set l := sinPi with hl
  set r := threeX with hr
  have bx : Built .strict (newVariable "x" : Expr Float.Model) := .var ⟨"x"⟩
  have bz : Built .strict (zero : Expr Float.Model) := .num _ (.ofI64 0)
  have bl : Built .strict l := .sin _ (.mul _ _ (.num _ .pi) bx)
  have br : Built .strict r := .mul _ _ (.num _ (.ofI64 3)) bx
  have hx : (newVariable "x" : Expr Float.Model) = ofVar ⟨"x"⟩ := rfl
  have i0 : R.real? (SmartNum.ofI64 0) = some 0 := R.z0
  have i1 : R.real? (SmartNum.ofI64 1) = some 1 := R.o1
  have i3 : R.real? (SmartNum.ofI64 3) = some 3 := by
    have := R.real?_ofI64 3
    rw [this, show (3 : Int64).toInt = 3 from by decide]; norm_num
  have hp0 : denote R.real? env (zero : Expr Float.Model) = some 0 := by
    rw [zero, Expr.ofI64, denote_ofNum]; exact i0
  have dpi : ∀ env, denote R.real? env (Expr.pi : Expr Float.Model) = some Real.pi := fun env => by
    rw [Expr.pi, denote_ofNum]; rfl
  have dx : ∀ t : ℝ, denote R.real? (env.set ⟨"x"⟩ t) (newVariable "x" : Expr Float.Model) = some t := fun t => by
    rw [hx]; simp
  have pp := Real.pi_pos
  have p3 := Real.pi_gt_three
  have p4 := Real.pi_le_four
  have hu : R.u = 2⁻¹ ^ 53 := rfl
  have hη : R.η ≤ 2⁻¹ ^ 60 := pow_le_pow_of_le_one (by norm_num) (by norm_num) (show 60 ≤ 1075 by norm_num)
  have rg : ∀ {A : ℝ}, 1 / 4 ≤ A → A ≤ 1000 → R.InRange A := F64.inRange
  have ap : R.Arith Expr.pi Real.pi 4 1 := .num _ Real.pi 4 rfl (by rw [abs_of_pos pp]; exact p4)
    (rg (by norm_num) (by norm_num))
  have a0 : R.Arith zero 0 1 1 := .num _ 0 1 i0 (by norm_num) (rg (by norm_num) (by norm_num))
  have a1 : R.Arith (Expr.ofI64 1) 1 1 1 := .num _ 1 1 i1 (by norm_num) (rg (by norm_num) (by norm_num))
  have a3 : R.Arith (Expr.ofI64 3) 3 3 1 := .num _ 3 3 i3 (by norm_num) (rg (by norm_num) (by norm_num))
  have q1 := Arith.mul _ _ _ _ 4 1 4 1 1 ap a0 (by norm_num) (rg (by norm_num) (by norm_num))
  have q2 := Arith.add _ _ _ _ 1 4 5 _ _
    (Arith.mul _ _ _ _ 1 1 1 1 1 a0 a0 (by norm_num) (rg (by norm_num) (by norm_num)))
    (Arith.mul _ _ _ _ 4 1 4 1 1 ap a1 (by norm_num) (rg (by norm_num) (by norm_num)))
    (by norm_num) (rg (by norm_num) (by norm_num))
  have q3 := Arith.add _ _ _ _ 1 3 4 _ _
    (Arith.mul _ _ _ _ 1 1 1 1 1 a0 a0 (by norm_num) (rg (by norm_num) (by norm_num)))
    (Arith.mul _ _ _ _ 3 1 3 1 1 a3 a1 (by norm_num) (rg (by norm_num) (by norm_num)))
    (by norm_num) (rg (by norm_num) (by norm_num))
  have bound : ∀ {e : Expr Float.Model} {w A : ℝ} {K : ℕ}, R.Arith e w A K → K ≤ 10 → A ≤ 8 → 0 ≤ A →
      ∃ E, R.Within env e w E ∧ E ≤ 2⁻¹ ^ 40 := by
    intro e w A K h hK hA h0
    have hK' : (K : ℝ) ≤ 10 := by exact_mod_cast hK
    have hs : 27 * R.u * K ≤ 1 := by rw [hu]; norm_num; linarith
    obtain ⟨E, h1, h2⟩ := h.within env hs
    refine ⟨E, h1, h2.trans ?_⟩
    have h3 := grow_le hs
    rw [hu] at h3
    have h4 : R.grow K - 1 ≤ 14 * 2⁻¹ ^ 53 * 10 := by norm_num at h3 ⊢; linarith
    calc (R.grow K - 1) * A ≤ (14 * 2⁻¹ ^ 53 * 10) * A := mul_le_mul_of_nonneg_right h4 h0
      _ ≤ (14 * 2⁻¹ ^ 53 * 10) * 8 := mul_le_mul_of_nonneg_left hA (by positivity)
      _ ≤ _ := by norm_num
  obtain ⟨E₁, w1, b1⟩ := bound q1 (by norm_num) (by norm_num) (by norm_num)
  obtain ⟨E₂, w2, b2⟩ := bound q2 (by norm_num) (by norm_num) (by norm_num)
  obtain ⟨E₃, w3, b3⟩ := bound q3 (by norm_num) (by norm_num) (by norm_num)
  rw [mul_zero] at w1
  rw [mul_zero, mul_one, zero_add] at w2 w3
  have tiny : (2⁻¹ : ℝ) ^ 40 ≤ 1 / 1000000000000 * (10 / 10) := by norm_num
  -- the operands meet the hypotheses
  have ql : R.Quotable .strict env ⟨"x"⟩ zero 0 l := by
    have noPow : PowAll (fun _ _ => False) l := powAll_sin.2 (powAll_mul.2 ⟨powAll_ofNum _, powAll_ofVar _⟩)
    have trig : ∀ a : Expr Float.Model, Subterm a.sin l ∨ Subterm a.cos l → a = Expr.pi.mul (newVariable "x") := by
      have : TrigAll (fun a => a = Expr.pi.mul (newVariable "x")) l :=
        trigAll_sin.2 ⟨rfl, trigAll_mul.2 ⟨trigAll_ofNum _, trigAll_ofVar _⟩⟩
      rintro a (h | h)
      · exact this _ h a (.inl rfl)
      · exact this _ h a (.inr rfl)
    refine ⟨bl, ⟨_, denote_sin.2 ⟨_, denote_mul.2 ⟨_, _, dpi _, dx 0, rfl⟩, rfl⟩⟩, fun s hs => ⟨?_, ?_, ?_, ?_, ?_⟩, ?_, ?_, ?_⟩
    · rintro a rfl
      have : Everywhere (fun s => ∀ a : Expr Float.Model, s ≠ a.cos) l := by
        refine everywhere_sin.2 ⟨fun a h => by expr_inj at h, everywhere_mul.2 ⟨fun a h => by expr_inj at h,
          everywhere_ofNum.2 fun a h => by expr_inj at h, everywhere_ofVar.2 fun a h => by expr_inj at h⟩⟩
      exact absurd rfl (this _ hs a)
    · rintro a rfl
      rw [trig a (.inl hs)]
      have e1 : (Expr.pi.mul (newVariable "x") : Expr Float.Model).replace ⟨"x"⟩ (ofNum (SmartNum.ofI64 0)) =
          Expr.pi.mul zero := by rw [hx]; simp [Expr.pi, zero, Expr.ofI64]
      have h1 := w1.encloses
      rw [← e1] at h1
      have h2 := h1.unreplace (.mul _ _ (.num _ trivial) (.var _)) i0
      refine ⟨_, ⟨point env, R.blur 0, ⟨env, mem_point env⟩, .num _ 0 _ i0 subset_rfl, rfl⟩,
        ⟨_, env_set_mem (mem_point env) (mem_blur 0) ⟨"x"⟩⟩, _, h2, fun h3 => ?_⟩
      have h3 : |Real.pi - 0| ≤ E₁ := h3
      rw [sub_zero, abs_of_pos pp] at h3
      linarith
    · rintro a b rfl; exact (noPow _ hs a b rfl).elim
    · rintro a b rfl; exact (noPow _ hs a b rfl).elim
    · rintro a b rfl; exact (noPow _ hs a b rfl).elim
    · intro a b h; exact (noPow _ h a b rfl).elim
    · intro s hs a b h; exact (noPow s hs a b h).elim
    · intro _ a h; rw [trig a h]; exact .mul_right _ _ .var
  have qr : R.Quotable .strict env ⟨"x"⟩ zero 0 r := by
    have nf : NoFn r := noFn_mul.2 ⟨noFn_ofNum _, noFn_ofVar _⟩
    refine ⟨br, ⟨_, denote_mul.2 ⟨_, _, by rw [Expr.ofI64, denote_ofNum]; exact i3, dx 0, rfl⟩⟩, nf.clear R _,
      fun a b hab => absurd rfl ((nf _ hab).pow a b), fun s hs a b hab => absurd hab ((nf s hs).pow a b), fun _ a ha =>
      ha.elim (fun h => absurd rfl ((nf _ h).sin a)) (fun h => absurd rfl ((nf _ h).cos a))⟩
  have w4 : R.Within env (Expr.pi.mul zero : Expr Float.Model).cos 1 (R.widen 1 (2⁻¹ ^ 40)) := by
    refine .unary genOpCos _ 0 E₁ 1 _ w1 (by simp [opValue, genOpCos]) fun y hy => ?_
    refine ⟨Real.cos y, by simp [opValue, genOpCos], ?_⟩
    rw [sub_zero] at hy
    have := Real.abs_cos_sub_cos_le y 0
    rw [Real.cos_zero, sub_zero] at this
    exact this.trans (hy.trans b1)
  have b4 : R.widen 1 (2⁻¹ ^ 40) ≤ 2⁻¹ ^ 39 := by
    rw [widen, hu]; norm_num at hη ⊢; linarith
  have big : ∀ {w : ℝ}, |w| ≤ 100 → |w| ≤ R.big := fun h => h.trans ((by norm_num : (100 : ℝ) ≤ 2 ^ 70).trans R.big_large)
  have w5 := Within.binary (R := R) genOpMul _ _ _ _ _ _ Real.pi (2⁻¹ ^ 36) w4 w2 (by simp [opValue, genOpMul]) fun y z hy hz => by
    have hy := hy.trans b4
    have hz := hz.trans b2
    refine ⟨y * z, rfl, ?_, fun _ => big ?_⟩
    · rw [abs_le] at hy hz ⊢
      norm_num at hy hz ⊢
      constructor <;> nlinarith
    · rw [abs_le] at hy hz ⊢
      norm_num at hy hz ⊢
      constructor <;> nlinarith
  have b5 : R.widen Real.pi (2⁻¹ ^ 36) ≤ 2⁻¹ ^ 35 := by
    rw [widen, hu, abs_of_pos pp]; norm_num at hη ⊢; linarith
  have w6 := Within.binary (R := R) genOpDiv _ _ _ _ _ _ (Real.pi / 3) (2⁻¹ ^ 33) w5 w3 (by simp [opValue, genOpDiv])
    fun y z hy hz => by
    have hy := hy.trans b5
    have hz := hz.trans b3
    rw [abs_le] at hy hz
    norm_num at hy hz
    have hz0 : 2 < z := by linarith
    have hzp : 0 < z := by linarith
    have h1 : |y / z - Real.pi / 3| ≤ 2⁻¹ ^ 33 := by
      rw [div_sub_div _ _ hzp.ne' (by norm_num), abs_div, abs_of_pos (show 0 < z * 3 by linarith),
        div_le_iff₀ (by linarith), abs_le]
      norm_num
      constructor <;> nlinarith
    refine ⟨y / z, by simp [opValue, genOpDiv, hzp.ne'], h1, fun _ => big ?_⟩
    rw [abs_le] at h1 ⊢
    norm_num at h1 ⊢
    constructor <;> linarith
  have b6 : R.widen (Real.pi / 3) (2⁻¹ ^ 33) ≤ 2⁻¹ ^ 30 := by
    rw [widen, hu, abs_of_pos (by positivity)]; norm_num at hη ⊢; linarith
  refine ⟨ql, qr, R.widen (Real.pi / 3) (2⁻¹ ^ 33), b6, ?_⟩
  have e1 : ((l.textbookN ⟨"x"⟩ 1).div (r.textbookN ⟨"x"⟩ 1)).replace ⟨"x"⟩ (ofNum (SmartNum.ofI64 0)) =
      ((Expr.pi.mul zero).cos.mul ((zero.mul zero).add (Expr.pi.mul (Expr.ofI64 1)))).div
        ((zero.mul zero).add ((Expr.ofI64 3).mul (Expr.ofI64 1))) := by
    show (((Expr.pi.mul (ofVar ⟨"x"⟩)).sin.textbook _).div (((Expr.ofI64 3).mul (ofVar ⟨"x"⟩)).textbook _)).replace _ _ = _
    have hp : (Expr.pi : Expr Float.Model).textbook ⟨"x"⟩ = Expr.ofI64 0 := textbook_ofNum _ _
    rw [textbook_sin, textbook_mul, textbook_same, textbook_mul, textbook_same, textbook_ofI64, hp]
    simp [Expr.pi, zero, Expr.ofI64]
  have h1 := w6.encloses
  rw [show (Expr.mk (.operator genOpDiv) [Expr.mk (.operator genOpMul) [(Expr.pi.mul zero).cos,
    (zero.mul zero).add (Expr.pi.mul (Expr.ofI64 1))], (zero.mul zero).add ((Expr.ofI64 3).mul (Expr.ofI64 1))] :
    Expr Float.Model) = ((Expr.pi.mul zero).cos.mul ((zero.mul zero).add (Expr.pi.mul (Expr.ofI64 1)))).div
        ((zero.mul zero).add ((Expr.ofI64 3).mul (Expr.ofI64 1))) from rfl, ← e1] at h1
  exact h1.unreplace (.div _ _ (textbookN_tree bl.tree 1) (textbookN_tree br.tree 1)) i0

/-- An instance: the limit of `sin(pi * x) / (3 * x)` at the literal 0, found with one L'Hôpital step, is a number, its
double is within 2^-30 of π/3, and π/3 is the true limit. -/
theorem C66_example : let l : Expr Float.Model := (Expr.pi.mul (newVariable "x")).sin
    let r : Expr Float.Model := (Expr.ofI64 3).mul (newVariable "x")
    (∃ c f, LimitIs .strict (l.div r) ⟨"x"⟩ zero 1 (.normal (ofNum c)) ∧
      F64.value c.toF64 = some f ∧ |f - Real.pi / 3| ≤ 2⁻¹ ^ 30) ∧
    ∀ env, Tendsto (fun t => fn F64.rounding.real? env ⟨"x"⟩ l t / fn F64.rounding.real? env ⟨"x"⟩ r t) (𝓝[≠] 0)
      (𝓝 (Real.pi / 3)) := by
  intro l r
  set R := F64.rounding with hR
  have main : ∀ env : Env, (∃ c f, LimitIs .strict (l.div r) ⟨"x"⟩ zero 1 (.normal (ofNum c)) ∧
      F64.value c.toF64 = some f ∧ |f - Real.pi / 3| ≤ 2⁻¹ ^ 30) ∧
      Tendsto (fun t => fn R.real? env ⟨"x"⟩ l t / fn R.real? env ⟨"x"⟩ r t) (𝓝[≠] 0) (𝓝 (Real.pi / 3)) := by
    intro env
    have bx : Built .strict (newVariable "x" : Expr Float.Model) := .var ⟨"x"⟩
    have bz : Built .strict (zero : Expr Float.Model) := .num _ (.ofI64 0)
    have bl : Built .strict l := .sin _ (.mul _ _ (.num _ .pi) bx)
    have br : Built .strict r := .mul _ _ (.num _ (.ofI64 3)) bx
    obtain ⟨c, hc⟩ : ∃ c, LimitIs .strict (l.div r) ⟨"x"⟩ zero 1 (.normal (ofNum c)) := by
      refine ⟨⟨.real (FloatOps.div FloatOps.pi (FloatOps.ofI64 3)), .nothing⟩, 8, ?_⟩
      krfl
    have hx : (newVariable "x" : Expr Float.Model) = ofVar ⟨"x"⟩ := rfl
    have i0 : R.real? (SmartNum.ofI64 0) = some 0 := R.z0
    have i1 : R.real? (SmartNum.ofI64 1) = some 1 := R.o1
    have i3 : R.real? (SmartNum.ofI64 3) = some 3 := by
      have := R.real?_ofI64 3
      rw [this, show (3 : Int64).toInt = 3 from by decide]; norm_num
    have hp0 : denote R.real? env (zero : Expr Float.Model) = some 0 := by
      rw [zero, Expr.ofI64, denote_ofNum]; exact i0
    have dpi : ∀ env, denote R.real? env (Expr.pi : Expr Float.Model) = some Real.pi := fun env => by
      rw [Expr.pi, denote_ofNum]; rfl
    have dx : ∀ t : ℝ, denote R.real? (env.set ⟨"x"⟩ t) (newVariable "x" : Expr Float.Model) = some t := fun t => by
      rw [hx]; simp
    obtain ⟨ql, qr, E, hE, hS1⟩ := sinPi_facts env
    obtain ⟨i, hi, -, ⟨dl, dr, a, b, g1, g2, g3, g4, g5⟩, hS⟩ := C66_rounding (R := R) .strict .strict l r zero bz ⟨"x"⟩ 1 _
      hc ((noFn_ofNum _).clear R _) (point env) (R.blur 0) (.num _ 0 _ i0 subset_rfl) env (mem_point env) 0 hp0 ql qr
    have uniq : ∀ {d : Expr Float.Model} {n : Nat} {z z' : LimitExpression Float.Model}, Tree d →
        limit .strict ⟨"x"⟩ zero 1 n d = .ok z → LimitIs .strict d ⟨"x"⟩ zero 1 z' → z = z' := by
      rintro d n z z' td h1 ⟨n', h2⟩
      have := limit_outcome_unique bz.tree td (h1.trans_ne (by simp)) (h2.trans_ne (by simp))
      rw [h1, h2] at this
      exact LOut.ok.inj this
    have hi1 : i = 1 := by
      have : i ≤ 1 := hi
      interval_cases i
      · exfalso
        cases g1
        cases g2
        have e1 := uniq (n := 2) (z := .infinitesimal) bl.tree (by krfl) g3
        have e2 := uniq (n := 3) (z := .infinitesimal) br.tree (by krfl) g4
        rw [← e1, ← e2] at g5
        simp [LimitExpression.div] at g5
      · rfl
    subst hi1
    have hS := hS _ hS1
    obtain ⟨w, -, hw, ht, hz⟩ := hS
    refine ⟨?_, ?_⟩
    · rcases hz with ⟨h1, -⟩ | ⟨c', h1, -, h2⟩
      · cases h1
      · cases h1
        obtain ⟨f, h3, h4⟩ := h2 c rfl
        exact ⟨c, f, hc, h4, le_trans h3 hE⟩
    · have fl : fn R.real? env ⟨"x"⟩ l = fun t => Real.sin (Real.pi * t) := by
        funext t; rw [fn, denote_sin.2 ⟨_, denote_mul.2 ⟨_, _, dpi _, dx t, rfl⟩, rfl⟩]; rfl
      have fr : fn R.real? env ⟨"x"⟩ r = fun t => 3 * t := by
        funext t; rw [fn, denote_mul.2 ⟨3, _, by rw [Expr.ofI64, denote_ofNum]; exact i3, dx t, rfl⟩]; rfl
      have hd1 : HasDerivAt (fun t : ℝ => Real.sin (Real.pi * t)) (Real.cos (Real.pi * 0) * Real.pi) 0 := by
        have h := (hasDerivAt_id (0 : ℝ)).const_mul Real.pi
        simpa using h.sin
      have hd2 : HasDerivAt (fun t : ℝ => 3 * t) 3 0 := by
        simpa using (hasDerivAt_id (0 : ℝ)).const_mul 3
      rw [fl, fr, iteratedDeriv_one, iteratedDeriv_one, hd1.deriv, hd2.deriv, mul_zero, Real.cos_zero, one_mul] at hw
      rw [← hw]; exact ht
  exact ⟨(main fun _ => 0).1, fun env => (main env).2⟩

end SymRust
