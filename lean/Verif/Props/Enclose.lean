import Verif.Proofs.EncloseArith
import Verif.Proofs.Kernel
import Verif.Props.Taylor
import Verif.Props.Rounding
import Verif.Proofs.Float64Laws
/-! # Rounding errors of derivatives and Taylor coefficients: properties C54, C63, C64 -/

namespace SymRust
variable {F : Type} [FloatOps F] (R : Rounding F)
open Expr Rounding

theorem Rounding.Cov.results {R : Rounding F} {V : Ranges} {d : Expr F} {S : Set ℝ} (h : R.Cov V d S) {env : Env}
    (hV : env ∈ V.envs) : (∃ w ∈ S, denote R.real? env d = some w) ∧
      ∀ n, d = ofNum n → ∃ f ∈ S, R.val n.toF64 = some f := by
  refine ⟨h.value hV, ?_⟩
  rintro n rfl
  obtain ⟨-, -, -, f, h1, h2⟩ := cov_num.1 h
  exact ⟨f, h1, h2⟩

/-! ## C54 -/

/-- C54: the result of `num_aggregate` lies in every enclosure of the expression. -/
theorem C54_enclosure (m : Mode) (e e' : Expr F) (he : Built m e) (h : e.numAggregate .strict = .ok e')
    (hs : R.Clear Set.univ e) (V : Ranges) (S : Set ℝ) (hS : R.Encloses V e S) (env : Env) (hV : env ∈ V.envs) :
    (∃ v ∈ S, denote R.real? env e' = some v) ∧ (∀ n, e' = ofNum n → ∃ f ∈ S, R.val n.toF64 = some f) ∧
    ∃ r ∈ S, denote R.real? env e = some r := by
  have he : WF SmartNum.Valid e := he.mono fun _ hn => hn.valid
  have hc := agg_cov (agg_of_numAggregate he.tree h) he ((hs.clearC he).ruleSafe he) ⟨env, hV⟩ (hS.cov he)
  exact ⟨(hc.results hV).1, (hc.results hV).2, (hS.cov he).value hV⟩

/-! ## C63 -/

/-- C63: the `k`-th derivative as returned lies in every enclosure of the `k`-th derivative by the textbook rules
without simplification; so does its `to_f64` if it is a number, and the exact derivative. -/
theorem C63_rounding (m : Mode) (e d : Expr F) (he : Built m e) (x : Variable) (k : Nat)
    (h : nthDerivative .strict e x k = .ok d) (hs : R.Clear Set.univ e) (V : Ranges) (S : Set ℝ)
    (hS : R.Encloses V (e.textbookN x k) S) (env : Env) (hV : env ∈ V.envs) :
    (∃ v ∈ S, denote R.real? env d = some v) ∧
    (∀ n, d = ofNum n → ∃ f ∈ S, R.val n.toF64 = some f) ∧
    ∀ r, denote R.real? env e = some r → iteratedDeriv k (fn R.real? env x e) (env x) ∈ S ∧
      ∀ j < k, DifferentiableAt ℝ (iteratedDeriv j (fn R.real? env x e)) (env x) := by
  have he : WF SmartNum.Valid e := he.mono fun _ hn => hn.valid
  obtain ⟨-, -, hr⟩ := nthDerivative_red he (hs.clearC he) h
  have ht : ∀ k, WF SmartNum.Valid (e.textbookN x k) := fun k => by
    induction k with
    | zero => exact he
    | succ k i => exact textbook_wf (SmartNum.valid_ofI64 0) (SmartNum.valid_ofI64 1) i
  have hc := hr.cov ⟨env, hV⟩ (hS.cov (ht k))
  refine ⟨(hc.results hV).1, (hc.results hV).2, fun r hr => ?_⟩
  obtain ⟨v, h1, h2⟩ := (hS.cov (ht k)).value hV
  obtain ⟨h3, h4⟩ := textbook_iterated R.z0 R.o1 he.tree hr h2
  exact ⟨h3 ▸ h1, h4⟩

/-- C63, in terms of the error bounds of C54: whatever error bound `E` error propagation gives for evaluating the `k`-th
derivative by the textbook rules, the returned derivative is within `E` of the exact one, at every assignment. -/
theorem C63_error_bound (m : Mode) (e d : Expr F) (he : Built m e) (x : Variable) (k : Nat)
    (h : nthDerivative .strict e x k = .ok d) (hs : R.Clear Set.univ e) (env : Env) (r E : ℝ)
    (hw : R.Within env (e.textbookN x k) r E) :
    (∃ v, denote R.real? env d = some v ∧ |v - r| ≤ E) ∧
    (∀ n, d = ofNum n → ∃ f, R.val n.toF64 = some f ∧ |f - r| ≤ E) ∧
    ∀ s, denote R.real? env e = some s → iteratedDeriv k (fn R.real? env x e) (env x) = r ∧
      ∀ j < k, DifferentiableAt ℝ (iteratedDeriv j (fn R.real? env x e)) (env x) := by
  obtain ⟨⟨v, h1, h2⟩, h3, -⟩ := C63_rounding R m e d he x k h hs _ _ hw.encloses env (mem_point env)
  refine ⟨⟨v, h2, h1⟩, fun n hn => ?_, fun s hs => textbook_iterated R.z0 R.o1 he.tree hs hw.denote⟩
  obtain ⟨f, h4, h5⟩ := h3 n hn
  exact ⟨f, h5, h4⟩

/-! ## C64 -/

theorem Rounding.factorial_cov {R : Rounding F} {V : Ranges} {k : Nat} {a : Expr F} {S : Set ℝ}
    (h : R.Cov V (a.div (Expr.ofI64 (Int64.ofNat k.factorial))) S) (hk : (Int64.ofNat k.factorial).toInt = k.factorial)
    {env : Env} (hV : env ∈ V.envs) : ∃ v, denote R.real? env a = some v ∧ v / (k.factorial : ℝ) ∈ S := by
  obtain ⟨S₁, S₂, h1, h2, h3⟩ := cov_div.1 h
  obtain ⟨v, hv, hv'⟩ := h1.value hV
  obtain ⟨w, hw, hw'⟩ := h2.value hV
  have : R.real? (SmartNum.ofI64 (Int64.ofNat k.factorial)) = some (k.factorial : ℝ) := by
    have := R.real?_ofI64 (Int64.ofNat k.factorial)
    rw [hk] at this
    simpa using this
  rw [Expr.ofI64, denote_ofNum, this] at hw'
  cases hw'
  exact ⟨v, hv', (h3 v hv _ hw).2.1 (mem_blur _)⟩

/-- C64: coefficient `k` of a successful expansion lies in every enclosure of the `k`-th derivative by the textbook
rules divided by `k!`, the variable ranging over an enclosure of the point; so does its `to_f64` if it is a number, and
the exact coefficient f⁽ᵏ⁾(p)/k!. -/
theorem C64_rounding (m m' : Mode) (e v : Expr F) (he : Built m e) (hv : Built m' v) (x : Variable) (n : UInt64)
    (t : PartialExpansion F) (h : e.taylorExpansion .strict x v n = .ok t)
    (hsv : R.Clear Set.univ v) (hs : R.Clear (R.Around x v) e) (hl : NoLnIntoBase x v e)
    (V : Ranges) (T S : Set ℝ) (hT : R.Encloses V v T) (k : Nat) (hk : k ≤ n.toNat)
    (hS : R.Encloses (V.set x T) ((e.textbookN x k).div (Expr.ofI64 (Int64.ofNat k.factorial))) S)
    (env : Env) (hV : env ∈ V.envs) :
    ∃ c, t.coefficient[k]? = some c ∧ (∃ w ∈ S, denote R.real? env c = some w) ∧
      (∀ n, c = ofNum n → ∃ f ∈ S, R.val n.toF64 = some f) ∧
      ∀ p r, denote R.real? env v = some p → denote R.real? (env.set x p) e = some r →
        iteratedDeriv k (fn R.real? env x e) p / (k.factorial : ℝ) ∈ S ∧
        ∀ j < k, DifferentiableAt ℝ (iteratedDeriv j (fn R.real? env x e)) p := by
  have he : WF SmartNum.Valid e := he.mono fun _ hn => hn.valid
  have hv : WF SmartNum.Valid v := hv.mono fun _ hn => hn.valid
  obtain ⟨-, -, -, -, -, hc⟩ := C33_shape _ _ _ _ _ _ h
  obtain ⟨d, s, u, c, g1, g2, g3, g4, g5, g6⟩ := hc k hk
  have g6 := g6 (by simp)
  rw [substitute_eq] at g2
  cases g2
  have hne : V.envs.Nonempty := ⟨env, hV⟩
  have cT := hT.cov hv
  have mem : ∀ p, p ∈ T → env.set x p ∈ (V.set x T).envs := fun p hp y => by
    by_cases hy : y = x
    · subst hy; simpa [ranges_set_same] using hp
    · rw [ranges_set_ne hy]; simpa [Env.set, hy] using hV y
  have hne' : (V.set x T).envs.Nonempty := by
    obtain ⟨p, hp⟩ := cT.nonempty hne
    exact ⟨_, mem p hp⟩
  have hsC : R.ClearC (R.AtC x v) e := by
    have sub : R.Around x v ⊆ R.AtC x v := by
      rintro V' ⟨V, T, h1, h2, rfl⟩
      exact ⟨V, T, h1, h2.cov hv, rfl⟩
    have up : ∀ {a c}, R.DiffC (R.Around x v) a c → R.DiffC (R.AtC x v) a c :=
      fun ⟨V, h1, h2⟩ => ⟨V, sub h1, h2⟩
    exact Everywhere.mono (fun s h => ⟨fun a ha => up (h.cos a ha), fun a ha => up (h.sin a ha),
      fun a b ha => ⟨up (h.pow a b ha).1, up (h.pow a b ha).2.1, (h.pow a b ha).2.2⟩⟩) (hs.clearC he)
  have hlC : LnOK x v e := by
    rintro s hs a b rfl hx
    exact noLn_iff.1 (hl a b hs hx)
  obtain ⟨wd, cd, rd⟩ := nthDerivative_red he hsC g1
  obtain ⟨-, ld⟩ := nthDerivative_lnOK he.tree hlC k g1
  have ht : ∀ k, WF SmartNum.Valid (e.textbookN x k) := fun k => by
    induction k with
    | zero => exact he
    | succ k i => exact textbook_wf (SmartNum.valid_ofI64 0) (SmartNum.valid_ofI64 1) i
  have wK : WF SmartNum.Valid (Expr.ofI64 (Int64.ofNat k.factorial) : Expr F) := .num _ (SmartNum.valid_ofI64 _)
  have cS := hS.cov (.div _ _ (ht k) wK)
  have c1 := (Red.div rd (.refl _)).cov hne' cS
  have c2 := c1.replace (.div _ _ wd.tree wK.tree) cT
  rw [replace_div, Expr.ofI64, replace_ofNum] at c2
  have wr : WF SmartNum.Valid (d.replace x v) := WF.replace wd hv x
  have cr := cd.replace wd.tree (hsv.clearC hv) ld
  have a1 := agg_of_numAggregate wr.tree g3
  have c3 := (Red.div (a1.red (x := x) wr (cr.ruleSafe wr)) (.refl _)).cov hne c2
  have wu := a1.wf (numClosed_valid .strict) wr
  have wd' : WF SmartNum.Valid (u.div (ofNum (SmartNum.ofI64 (Int64.ofNat k.factorial)))) := .div _ _ wu wK
  have a2 := agg_of_numAggregate wd'.tree g4
  have c4 := agg_cov a2 wd' ((clearC_div.2 ⟨a1.clearC wr cr, clearC_ofNum _⟩).ruleSafe wd') hne c3
  refine ⟨c, g5, (c4.results hV).1, (c4.results hV).2, fun p r hp hr => ?_⟩
  obtain ⟨p', hp', hp''⟩ := cT.value hV
  rw [hp] at hp''; cases hp''
  obtain ⟨w, h1, h2⟩ := factorial_cov cS g6 (mem p hp')
  obtain ⟨h3, h4⟩ := textbook_iterated R.z0 R.o1 he.tree hr h1
  have hfn : fn R.real? (env.set x p) x e = fn R.real? env x e := by funext t; simp [fn]
  rw [hfn, Env.set_same] at h3 h4
  exact ⟨h3 ▸ h2, h4⟩

/-- C64 for arithmetic expressions at a number: the coefficients are numbers, and the float of coefficient `k` is within
`14 u K A` of f⁽ᵏ⁾(p)/k!, where `K` counts the operations in the `k`-th derivative by the textbook rules at the point,
divided by `k!`, and `A` is its value without cancellation. -/
theorem C64_arithmetic (m m' : Mode) (e : Expr F) (v : SmartNum F) (he : Built m e) (hv : v.Reachable m') (x : Variable)
    (ha : Arithmetic x e) (n : UInt64) (t : PartialExpansion F) (h : e.taylorExpansion .strict x (ofNum v) n = .ok t)
    (p : ℝ) (hp : R.real? v = some p) (k : Nat) (hk : k ≤ n.toNat) (r A : ℝ) (K : ℕ)
    (hr : R.Arith (((e.textbookN x k).replace x (ofNum v)).div (Expr.ofI64 (Int64.ofNat k.factorial))) r A K)
    (hK : 27 * R.u * K ≤ 1) :
    ∃ c f, t.coefficient[k]? = some (ofNum c) ∧ R.val c.toF64 = some f ∧ |f - r| ≤ 14 * R.u * K * A ∧
      ∀ env s, denote R.real? (env.set x p) e = some s →
        iteratedDeriv k (fn R.real? env x e) p / (k.factorial : ℝ) = r ∧
        ∀ j < k, DifferentiableAt ℝ (iteratedDeriv j (fn R.real? env x e)) p := by
  obtain ⟨tr, nf, ox⟩ := ha.facts
  have tk := textbookN_tree (x := x) tr k
  have main : ∀ env : Env, ∃ E, E ≤ 14 * R.u * K * A ∧
      R.Within env (((e.textbookN x k).replace x (ofNum v)).div (Expr.ofI64 (Int64.ofNat k.factorial))) r E ∧
      ∃ c, t.coefficient[k]? = some c ∧
        (∀ n, c = ofNum n → ∃ f, R.val n.toF64 = some f ∧ |f - r| ≤ E) ∧
        ∀ s, denote R.real? (env.set x p) e = some s →
          ∀ j < k, DifferentiableAt ℝ (iteratedDeriv j (fn R.real? env x e)) p := by
    intro env
    obtain ⟨E, hw, hE⟩ := hr.within env hK
    have hS := hw.encloses
    rw [show ((e.textbookN x k).replace x (ofNum v)).div (Expr.ofI64 (Int64.ofNat k.factorial)) =
      ((e.textbookN x k).div (Expr.ofI64 (Int64.ofNat k.factorial))).replace x (ofNum v) by simp] at hS
    have hS := hS.unreplace (.div _ _ tk (.num _ trivial)) hp
    obtain ⟨c, h1, -, h2, h3⟩ := C64_rounding R m m' e (ofNum v) he (.num _ hv) x n t h ((noFn_ofNum v).clear R _)
      (nf.clear R _) (fun a b hab => absurd rfl ((nf _ hab).pow a b)) (point env) (R.blur p) _
      (.num v p _ hp subset_rfl) k hk hS env (mem_point env)
    have hA : (R.grow K - 1) * A ≤ 14 * R.u * K * A :=
      mul_le_mul_of_nonneg_right (by have := grow_le hK; linarith) ((abs_nonneg r).trans hr.abs_le.1)
    refine ⟨E, hE.trans hA, hw, c, h1, fun n hn => ?_, fun s hs => (h3 p s (by rw [denote_ofNum]; exact hp) hs).2⟩
    obtain ⟨f, h4, h5⟩ := h2 n hn
    exact ⟨f, h5, h4⟩
  obtain ⟨-, -, -, -, -, hc⟩ := C33_shape _ _ _ _ _ _ h
  obtain ⟨d, s, u, c, g1, g2, g3, g4, g5, g6⟩ := hc k hk
  have g6 := g6 (by simp)
  rw [substitute_eq] at g2
  cases g2
  obtain ⟨td, nd, od⟩ := nthDerivative_noFn tr nf ox k g1
  have tr' : Tree (d.replace x (ofNum v)) := WF.replace td (.num _ trivial) x
  obtain ⟨n1, rfl⟩ := (agg_of_numAggregate tr' g3).number (nd.replace td v) fun y hy => by
    rcases occurs_replace.1 hy with ⟨h1, h2⟩ | ⟨-, h1⟩
    · exact h2 (od y h1)
    · simp at h1
  have t2 : Tree ((ofNum n1).div (ofI64 (Int64.ofNat k.factorial)) : Expr F) := .div _ _ (.num _ trivial) (.num _ trivial)
  obtain ⟨n2, rfl⟩ := (agg_of_numAggregate t2 g4).number (noFn_div.2 ⟨noFn_ofNum _, noFn_ofNum _⟩) fun y hy => by
    simp [Expr.ofI64] at hy
  obtain ⟨E, hE, -, c', h1, h2, -⟩ := main fun _ => 0
  rw [g5] at h1
  cases h1
  obtain ⟨f, h3, h4⟩ := h2 n2 rfl
  refine ⟨n2, f, g5, h3, h4.trans hE, fun env s hs => ⟨?_, ?_⟩⟩
  · obtain ⟨E, -, hw, -⟩ := main env
    obtain ⟨r1, r2, h5, h6, h7, rfl⟩ := denote_div.1 hw.denote
    rw [denote_replace tk (by rw [denote_ofNum]; exact hp)] at h5
    have : R.real? (SmartNum.ofI64 (Int64.ofNat k.factorial)) = some (k.factorial : ℝ) := by
      have := R.real?_ofI64 (Int64.ofNat k.factorial)
      rw [g6] at this
      simpa using this
    rw [Expr.ofI64, denote_ofNum, this] at h6
    cases h6
    have := (textbook_iterated R.z0 R.o1 tr hs h5).1
    have hfn : fn R.real? (env.set x p) x e = fn R.real? env x e := by funext t; simp [fn]
    rw [hfn, Env.set_same] at this
    rw [this]
  · obtain ⟨-, -, -, -, -, -, h5⟩ := main env
    exact h5 s hs

/-! ## Instances for doubles -/

theorem F64.inRange {A : ℝ} (h1 : 1 / 4 ≤ A) (h2 : A ≤ 1000) : F64.rounding.InRange A := by
  refine ⟨?_, ?_⟩
  · show 2 * A ≤ F64.largest
    exact le_trans (by norm_num; linarith) F64.largest_ge
  · show (4 : ℝ) * 2⁻¹ ^ 1075 ≤ 2⁻¹ ^ 53 * A
    calc (4 : ℝ) * 2⁻¹ ^ 1075 = 2⁻¹ ^ 1073 := by rw [show 1075 = 1073 + 2 from rfl, pow_add]; ring
      _ ≤ 2⁻¹ ^ 55 := pow_le_pow_of_le_one (by norm_num) (by norm_num) (by norm_num)
      _ = 2⁻¹ ^ 53 * (1 / 4) := by norm_num
      _ ≤ _ := mul_le_mul_of_nonneg_left h1 (by positivity)

/-- An instance: the derivative of `pi * pi * x` is a number, and its double is within 2^-40 of π². -/
theorem C63_example : let e : Expr Float.Model := (Expr.pi.mul Expr.pi).mul (newVariable "x")
    ∃ n f, e.derivative .strict ⟨"x"⟩ = .ok (ofNum n) ∧ F64.value n.toF64 = some f ∧ |f - Real.pi ^ 2| ≤ 2⁻¹ ^ 40 := by
  intro e
  have hb : Built .strict e := .mul _ _ (.mul _ _ (.num _ .pi) (.num _ .pi)) (.var ⟨"x"⟩)
  have run : e.derivative .strict ⟨"x"⟩ = .ok (ofNum ⟨.real (FloatOps.mul FloatOps.pi FloatOps.pi), .nothing⟩) := by krfl
  have i0 := F64.rounding.z0
  have i1 := F64.rounding.o1
  have hpi := Real.pi_le_four
  have pp := Real.pi_pos
  have ap : F64.rounding.Arith Expr.pi Real.pi 4 1 :=
    .num _ Real.pi 4 (by simp [real?, SmartNum.pi]) (by rw [abs_of_pos pp]; exact hpi)
      (F64.inRange (by norm_num) (by norm_num))
  have a0 : F64.rounding.Arith (Expr.ofI64 0) 0 1 1 := .num _ 0 1 i0 (by norm_num) (F64.inRange (by norm_num) (by norm_num))
  have a1 : F64.rounding.Arith (Expr.ofI64 1) 1 1 1 := .num _ 1 1 i1 (by norm_num) (F64.inRange (by norm_num) (by norm_num))
  have l1 := Arith.mul _ _ _ _ 1 4 4 1 1 a0 ap (by norm_num) (F64.inRange (by norm_num) (by norm_num))
  have l2 := Arith.mul _ _ _ _ 4 1 4 1 1 ap a0 (by norm_num) (F64.inRange (by norm_num) (by norm_num))
  have l3 := Arith.add _ _ _ _ 4 4 8 _ _ l1 l2 (by norm_num) (F64.inRange (by norm_num) (by norm_num))
  have r1 := Arith.mul _ _ _ _ 4 4 16 1 1 ap ap (by norm_num) (F64.inRange (by norm_num) (by norm_num))
  have r2 := Arith.mul _ _ _ _ 16 1 16 _ _ r1 a1 (by norm_num) (F64.inRange (by norm_num) (by norm_num))
  have hu : F64.rounding.u = 2⁻¹ ^ 53 := rfl
  have hη : F64.rounding.η ≤ 2⁻¹ ^ 60 := pow_le_pow_of_le_one (by norm_num) (by norm_num) (show 60 ≤ 1075 by norm_num)
  obtain ⟨E₁, w1, b1⟩ := l3.within (fun _ => 0) (by rw [hu]; norm_num)
  obtain ⟨E₂, w2, b2⟩ := r2.within (fun _ => 0) (by rw [hu]; norm_num)
  have b2' : E₂ ≤ 2⁻¹ ^ 42 := b2.trans (by
    have := grow_le (R := F64.rounding) (k := 1 + 1 + 1 + 1 + 1) (by rw [hu]; norm_num)
    rw [hu] at this
    norm_num at this ⊢
    linarith)
  have w3 : F64.rounding.Within (fun _ => 0)
      ((((Expr.ofI64 0).mul Expr.pi).add (Expr.pi.mul (Expr.ofI64 0))).mul (newVariable "x")) 0 (F64.rounding.widen 0 0) :=
    .binary genOpMul _ _ _ E₁ 0 0 0 0 w1 (.var ⟨"x"⟩) (by simp [opValue, genOpMul]) fun y z _ hz => by
      have : z = 0 := by simpa using hz
      subst this
      exact ⟨0, by simp [opValue, genOpMul], by simp, fun _ => by simpa using le_trans (by norm_num) F64.rounding.big_large⟩
  have e3 : F64.rounding.widen 0 0 = 4 * F64.rounding.η := by simp [widen]
  have w4 : F64.rounding.Within (fun _ => 0) (e.textbookN ⟨"x"⟩ 1) (Real.pi * Real.pi)
      (F64.rounding.widen (Real.pi * Real.pi) (2⁻¹ ^ 41)) := by
    have : e.textbookN ⟨"x"⟩ 1 = ((((Expr.ofI64 0).mul Expr.pi).add (Expr.pi.mul (Expr.ofI64 0))).mul
        (newVariable "x")).add ((Expr.pi.mul Expr.pi).mul (Expr.ofI64 1)) := by
      show ((Expr.pi.mul Expr.pi).mul (ofVar ⟨"x"⟩)).textbook _ = _
      have hp : (Expr.pi : Expr Float.Model).textbook ⟨"x"⟩ = Expr.ofI64 0 := textbook_ofNum _ _
      rw [textbook_mul, textbook_mul, textbook_same, hp]; rfl
    rw [this]
    refine .binary genOpAdd _ _ _ _ _ E₂ _ _ w3 w2 (by simp [opValue, genOpAdd]) fun y z hy hz => ?_
    rw [e3, sub_zero] at hy
    have h1 : |y + z - Real.pi * Real.pi| ≤ 2⁻¹ ^ 41 := by
      have : y + z - Real.pi * Real.pi = y + (z - Real.pi * Real.pi * 1) := by ring
      rw [this]
      refine (abs_add_le _ _).trans ((add_le_add (hy.trans (mul_le_mul_of_nonneg_left hη (by norm_num)))
        (hz.trans b2')).trans (by norm_num))
    refine ⟨y + z, rfl, h1, fun _ => le_trans ?_ (le_trans (show (100 : ℝ) ≤ 2 ^ 70 by norm_num) F64.rounding.big_large)⟩
    have h2 : |y + z| ≤ |y + z - Real.pi * Real.pi| + |Real.pi * Real.pi| := by
      have := abs_add_le (y + z - Real.pi * Real.pi) (Real.pi * Real.pi)
      simpa using this
    rw [abs_of_pos (mul_pos pp pp)] at h2
    have : (2⁻¹ : ℝ) ^ 41 ≤ 1 := by norm_num
    nlinarith
  have run1 : nthDerivative .strict e ⟨"x"⟩ 1 =
      .ok (ofNum ⟨.real (FloatOps.mul FloatOps.pi FloatOps.pi), .nothing⟩) := by krfl
  obtain ⟨-, h2, -⟩ := C63_error_bound F64.rounding .strict e _ hb ⟨"x"⟩ 1 run1
    (((noFn_mul.2 ⟨noFn_mul.2 ⟨noFn_ofNum _, noFn_ofNum _⟩, noFn_ofVar ⟨"x"⟩⟩ : NoFn e)).clear _ _) _ _ _ w4
  obtain ⟨f, h3, h4⟩ := h2 _ rfl
  refine ⟨_, f, run, h3, ?_⟩
  rw [pow_two]
  refine h4.trans ?_
  rw [widen, abs_of_pos (mul_pos pp pp), hu]
  have : Real.pi * Real.pi ≤ 16 := by nlinarith
  norm_num at hη ⊢
  linarith

/-- An instance: coefficient 1 of the expansion of `pi * x * x` at 1/3 is a number, and its double is within 2^-40 of
2π/3. -/
theorem C64_example : let e : Expr Float.Model := (Expr.pi.mul (newVariable "x")).mul (newVariable "x")
    let p : SmartNum Float.Model := ⟨.rational ⟨1, 1, 3⟩, .nothing⟩
    ∃ t c f, e.taylorExpansion .strict ⟨"x"⟩ (ofNum p) 1 = .ok t ∧ t.coefficient[1]? = some (ofNum c) ∧
      F64.value c.toF64 = some f ∧ |f - 2 * Real.pi / 3| ≤ 2⁻¹ ^ 40 := by
  intro e p
  have hb : Built .strict e := .mul _ _ (.mul _ _ (.num _ .pi) (.var ⟨"x"⟩)) (.var ⟨"x"⟩)
  have hp : p.Reachable .strict := .newRational 1 1 3 p (by rfl)
  obtain ⟨t, ht⟩ : ∃ t, e.taylorExpansion .strict ⟨"x"⟩ (ofNum p) 1 = .ok t := by
    have : (match e.taylorExpansion .strict ⟨"x"⟩ (ofNum p) 1 with | .ok _ => true | _ => false) = true := by krfl
    cases h : e.taylorExpansion .strict ⟨"x"⟩ (ofNum p) 1 with
    | ok t => exact ⟨t, rfl⟩
    | err => rw [h] at this; simp at this
    | panic => rw [h] at this; simp at this
  have pv : F64.rounding.real? p = some (1 / 3) := by
    have : p.exact? = some (1 / 3) := by
      have h1 : p.exact? = some (RationalNum.value ⟨1, 1, 3⟩) := rfl
      rw [h1, RationalNum.value]
      show some (((Int64.toInt 1 : ℤ) : ℚ) * ((UInt64.toNat 1 : ℕ) : ℚ) / ((UInt64.toNat 3 : ℕ) : ℚ)) = _
      rw [show Int64.toInt 1 = 1 from by decide, show UInt64.toNat 1 = 1 from rfl, show UInt64.toNat 3 = 3 from rfl]
      norm_num
    simp [real?, this, show p.tag = .nothing from rfl, show p.value = .rational ⟨1, 1, 3⟩ from rfl]
  have i0 := F64.rounding.z0
  have i1 := F64.rounding.o1
  have hpi := Real.pi_le_four
  have pp := Real.pi_pos
  have rg : ∀ {A : ℝ}, 1 / 4 ≤ A → A ≤ 1000 → F64.rounding.InRange A := F64.inRange
  have ap : F64.rounding.Arith Expr.pi Real.pi 4 1 :=
    .num _ Real.pi 4 (by simp [real?, SmartNum.pi]) (by rw [abs_of_pos pp]; exact hpi) (rg (by norm_num) (by norm_num))
  have a0 : F64.rounding.Arith (Expr.ofI64 0) 0 1 1 := .num _ 0 1 i0 (by norm_num) (rg (by norm_num) (by norm_num))
  have a1 : F64.rounding.Arith (Expr.ofI64 1) 1 1 1 := .num _ 1 1 i1 (by norm_num) (rg (by norm_num) (by norm_num))
  have a1' : F64.rounding.Arith (Expr.ofI64 1) 1 |1| 1 := by rw [abs_one]; exact a1
  have ax : F64.rounding.Arith (ofNum p) (1 / 3) 1 1 := .num _ _ 1 pv (by rw [abs_of_pos] <;> norm_num) (rg (by norm_num) (by norm_num))
  have l1 := Arith.mul _ _ _ _ 1 1 1 1 1 a0 ax (by norm_num) (rg (by norm_num) (by norm_num))
  have l2 := Arith.mul _ _ _ _ 4 1 4 1 1 ap a1 (by norm_num) (rg (by norm_num) (by norm_num))
  have l3 := Arith.add _ _ _ _ 1 4 5 _ _ l1 l2 (by norm_num) (rg (by norm_num) (by norm_num))
  have l4 := Arith.mul _ _ _ _ 5 1 5 _ _ l3 ax (by norm_num) (rg (by norm_num) (by norm_num))
  have r1 := Arith.mul _ _ _ _ 4 1 4 _ _ ap ax (by norm_num) (rg (by norm_num) (by norm_num))
  have r2 := Arith.mul _ _ _ _ 4 1 4 _ _ r1 a1 (by norm_num) (rg (by norm_num) (by norm_num))
  have l5 := Arith.add _ _ _ _ 5 4 9 _ _ l4 r2 (by norm_num) (rg (by norm_num) (by norm_num))
  have l6 := Arith.div _ _ _ _ 9 9 _ _ l5 a1' (by norm_num) (by norm_num) (rg (by norm_num) (by norm_num))
  have eq : ((e.textbookN ⟨"x"⟩ 1).replace ⟨"x"⟩ (ofNum p)).div (Expr.ofI64 (Int64.ofNat (1 : ℕ).factorial)) =
      (((((Expr.ofI64 0).mul (ofNum p)).add (Expr.pi.mul (Expr.ofI64 1))).mul (ofNum p)).add
        ((Expr.pi.mul (ofNum p)).mul (Expr.ofI64 1))).div (Expr.ofI64 1) := by
    have : e.textbookN ⟨"x"⟩ 1 = ((((Expr.ofI64 0).mul (ofVar ⟨"x"⟩)).add (Expr.pi.mul (Expr.ofI64 1))).mul
        (ofVar ⟨"x"⟩)).add ((Expr.pi.mul (ofVar ⟨"x"⟩)).mul (Expr.ofI64 1)) := by
      show ((Expr.pi.mul (ofVar ⟨"x"⟩)).mul (ofVar ⟨"x"⟩)).textbook _ = _
      have hp : (Expr.pi : Expr Float.Model).textbook ⟨"x"⟩ = Expr.ofI64 0 := textbook_ofNum _ _
      rw [textbook_mul, textbook_mul, textbook_same, hp]
    rw [this]
    simp [Expr.pi]
  rw [← eq] at l6
  obtain ⟨c, f, h1, h2, h3, -⟩ := C64_arithmetic F64.rounding .strict .strict e p hb hp ⟨"x"⟩
    (.mul (.mul (.num _) .var) .var) 1 t ht _ pv 1 (by decide) _ _ _ l6 (by
      show (27 : ℝ) * 2⁻¹ ^ 53 * _ ≤ 1; norm_num)
  refine ⟨t, c, f, ht, h1, h2, ?_⟩
  have e2 : (0 * (1 / 3) + Real.pi * 1) * (1 / 3) + Real.pi * (1 / 3) * 1 = 2 * Real.pi / 3 := by ring
  rw [div_one, e2] at h3
  refine h3.trans ?_
  show (14 : ℝ) * 2⁻¹ ^ 53 * _ * 9 ≤ _
  norm_num

end SymRust
