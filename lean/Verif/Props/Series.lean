import Verif.Proofs.Series
import Verif.Props.Taylor
import Verif.Proofs.PosPoly
import Verif.Props.Semantics
import Mathlib.RingTheory.PowerSeries.Log
/-! # C73: expansions at rational points are the formal power series -/

namespace SymRust
variable {F : Type} [FloatOps F]
open Expr PowerSeries

theorem series_coefficient (m m' : Mode) (e : Expr F) (he : Built m e) (v : SmartNum F) (hv : v.Reachable m') (p : ℚ)
    (hp : v.exact? = some p) (x : Variable) (f : ℚ⟦X⟧) (hf : HasSeries x p e f) (n : UInt64) (t : PartialExpansion F)
    (h : e.taylorExpansion .strict x (ofNum v) n = .ok t) (k : ℕ) (hk : k ≤ n.toNat) :
    ∃ c : SmartNum F, t.coefficient[k]? = some (ofNum c) ∧ c.Valid ∧ c.exact? = some (coeff k f) := by
  obtain ⟨-, -, -, -, -, h5⟩ := C33_shape .strict e _ x n t h
  obtain ⟨d, s, u, c, h1, h2, h3, h4, h6, h7⟩ := h5 k hk
  obtain ⟨wd, hd⟩ := hf.nth he.valid k h1
  rw [substitute_eq] at h2
  cases h2
  obtain ⟨a, rfl, va, ea⟩ := hd.eval hv.valid hp wd h3
  have hfac := h7 (by simp)
  have hq : (SmartNum.ofI64 (Int64.ofNat k.factorial) : SmartNum F).exact? = some (k.factorial : ℚ) := by
    show some (((Int64.ofNat k.factorial).toInt : ℤ) : ℚ) = _
    rw [hfac]; norm_num
  have vq : (SmartNum.ofI64 (Int64.ofNat k.factorial) : SmartNum F).Valid := (numClosed_valid .strict).ofI64 _
  have hne : (k.factorial : ℚ) ≠ 0 := by exact_mod_cast k.factorial_ne_zero
  rw [numAggregate_div, ofI64, numAggregate_ofNum, numAggregate_ofNum] at h4
  obtain ⟨z, hz, h3'⟩ := Res.bind_eq_ok.mp (show (a.div .strict (SmartNum.ofI64 (Int64.ofNat k.factorial)) >>=
    fun z => .ok (ofNum z)) = .ok c from h4)
  cases h3'
  refine ⟨z, h6, (numClosed_valid _).div _ _ _ va vq hz, ?_⟩
  rw [SmartNum.div_exact (by simp) va vq ea hq hne hz, constantCoeff_iterate_derivative, mul_div_cancel_left₀ _ hne]

/-- C73: if `f` is the formal power series of `e` at the exact number `v`, every coefficient of an expansion at `v` in
which nothing wraps is a single number, and it is exactly the rational coefficient of `f`. -/
theorem C73_series (m m' : Mode) (e : Expr F) (he : Built m e) (v : SmartNum F) (hv : v.Reachable m') (p : ℚ)
    (hp : v.exact? = some p) (x : Variable) (f : ℚ⟦X⟧) (hf : HasSeries x p e f) (n : UInt64) (t : PartialExpansion F)
    (h : e.taylorExpansion .strict x (ofNum v) n = .ok t) (k : ℕ) (hk : k ≤ n.toNat) :
    ∃ c : SmartNum F, t.coefficient[k]? = some (ofNum c) ∧ c.exact? = some (coeff k f) := by
  obtain ⟨c, h1, -, h2⟩ := series_coefficient m m' e he v hv p hp x f hf n t h k hk
  exact ⟨c, h1, h2⟩

omit [FloatOps F] in
/-- C73: an expression has at most one series. -/
theorem C73_unique (x : Variable) (p : ℚ) (e : Expr F) (f g : ℚ⟦X⟧) (hf : HasSeries x p e f) (hg : HasSeries x p e g) :
    f = g := by
  induction hf generalizing g with
  | num n q hq =>
    obtain ⟨r, hr, rfl⟩ := hasSeries_num hg
    rw [hq] at hr; cases hr; rfl
  | var => exact (hasSeries_var hg).2.symm
  | neg _ i => obtain ⟨a, ha, rfl⟩ := hasSeries_neg hg; rw [i _ ha]
  | add _ _ i j => obtain ⟨a, b, ha, hb, rfl⟩ := hasSeries_add hg; rw [i _ ha, j _ hb]
  | sub _ _ i j => obtain ⟨a, b, ha, hb, rfl⟩ := hasSeries_sub hg; rw [i _ ha, j _ hb]
  | mul _ _ i j => obtain ⟨a, b, ha, hb, rfl⟩ := hasSeries_mul hg; rw [i _ ha, j _ hb]
  | div _ _ _ i j => obtain ⟨a, b, ha, hb, -, rfl⟩ := hasSeries_div hg; rw [i _ ha, j _ hb]
  | sin _ _ i => obtain ⟨a, ha, -, rfl⟩ := hasSeries_sin hg; rw [i _ ha]
  | cos _ _ i => obtain ⟨a, ha, -, rfl⟩ := hasSeries_cos hg; rw [i _ ha]
  | exp _ _ i => obtain ⟨a, ha, -, rfl⟩ := hasSeries_exp hg; rw [i _ ha]
  | ln _ h0 h1 i =>
    obtain ⟨ha, g0⟩ := hasSeries_ln hg
    exact exp_subst_inj h0 g0 (h1.trans (i _ ha))

theorem HasSeries.value {x : Variable} {p : ℚ} {e : Expr F} {f : ℚ⟦X⟧} (hs : HasSeries x p e f) (env : Env) 
    (w : WF SmartNum.Valid e) :
    denote SmartNum.exactReal (env.set x p) e = some ((constantCoeff f : ℚ) : ℝ) := by
  induction hs with
  | num n q hq => rw [denote_ofNum, exactReal_of_exact hq (WF.num_iff.1 w)]; simp [opValue]
  | var => simp [opValue]
  | neg _ i => rw [denote_neg', i (WF.neg_iff.1 w)]; simp [opValue]
  | add _ _ i j => rw [denote_add', i (WF.add_iff.1 w).1, j (WF.add_iff.1 w).2]; simp [opValue]
  | sub _ _ i j => rw [denote_sub', i (WF.sub_iff.1 w).1, j (WF.sub_iff.1 w).2]; simp [opValue]
  | mul _ _ i j => rw [denote_mul', i (WF.mul_iff.1 w).1, j (WF.mul_iff.1 w).2]; simp [opValue]
  | div _ _ h0 i j =>
    rw [denote_div', i (WF.div_iff.1 w).1, j (WF.div_iff.1 w).2]
    simp [opValue, h0, div_eq_mul_inv]
  | sin _ h0 i =>
    rw [denote_sin', i (WF.sin_iff.1 w), h0, constantCoeff_subst_of_zero h0, constantCoeff_sin_series]; simp [opValue]
  | cos _ h0 i =>
    rw [denote_cos', i (WF.cos_iff.1 w), h0, constantCoeff_subst_of_zero h0, constantCoeff_cos_series]; simp [opValue]
  | exp _ h0 i =>
    rw [denote_exp', i (WF.exp_iff.1 w), h0, constantCoeff_subst_of_zero h0]; simp [opValue]
  | ln _ h0 h1 i =>
    rw [denote_ln', i (WF.ln_iff.1 w), h0, ← h1, constantCoeff_subst_of_zero h0]; simp [opValue]

theorem HasSeries.safe {x : Variable} {p : ℚ} {e : Expr F} {f : ℚ⟦X⟧} (hs : HasSeries x p e f) (w : WF SmartNum.Valid e)
    {E : Set Env} (env : Env) (hE : env.set x p ∈ E) :
    SafeD SmartNum.exactReal E e ∧ ∀ a b : Expr F, ¬ Subterm (a.pow b) e := by
  have av : ∀ {a : Expr F} {f : ℚ⟦X⟧}, HasSeries x p a f → WF SmartNum.Valid a → constantCoeff f = 0 →
      Avoids SmartNum.exactReal E a Real.pi := by
    intro a f h w h0
    refine ⟨_, hE, _, h.value env w, ?_⟩
    rw [h0]; simpa using Real.pi_ne_zero.symm
  have sub1 : ∀ {a b : Expr F} {r c}, a.pow b ≠ .mk r [c] → ¬ Subterm (a.pow b) c → ¬ Subterm (a.pow b) (.mk r [c]) := by
    intro a b r c h1 h2 h
    rw [subterm_mk] at h
    rcases h with h | ⟨d, hd, h⟩
    · exact h1 h
    · rw [List.mem_singleton.1 hd] at h; exact h2 h
  have sub2 : ∀ {a b : Expr F} {r c d}, a.pow b ≠ .mk r [c, d] → ¬ Subterm (a.pow b) c → ¬ Subterm (a.pow b) d →
      ¬ Subterm (a.pow b) (.mk r [c, d]) := by
    intro a b r c d h1 h2 h3 h
    rw [subterm_mk] at h
    rcases h with h | ⟨u, hd, h⟩
    · exact h1 h
    · rcases List.mem_pair.1 hd with rfl | rfl
      · exact h2 h
      · exact h3 h
  have sub0 : ∀ {a b : Expr F} {r}, a.pow b ≠ .mk r [] → ¬ Subterm (a.pow b) (.mk r []) := by
    intro a b r h1 h
    rw [subterm_mk] at h
    rcases h with h | ⟨u, hd, h⟩
    · exact h1 h
    · cases hd
  induction hs with
  | num n => exact ⟨safeD_ofNum n, fun a b => sub0 fun h => by expr_inj at h⟩
  | var => exact ⟨safeD_ofVar _, fun a b => sub0 fun h => by expr_inj at h⟩
  | neg _ i =>
    obtain ⟨h1, h2⟩ := i (WF.neg_iff.1 w)
    exact ⟨safeD_neg.2 h1, fun a b => sub1 (fun h => by expr_inj at h) (h2 a b)⟩
  | exp _ _ i =>
    obtain ⟨h1, h2⟩ := i (WF.exp_iff.1 w)
    exact ⟨safeD_exp.2 h1, fun a b => sub1 (fun h => by expr_inj at h) (h2 a b)⟩
  | ln _ _ _ i =>
    obtain ⟨h1, h2⟩ := i (WF.ln_iff.1 w)
    exact ⟨safeD_ln.2 h1, fun a b => sub1 (fun h => by expr_inj at h) (h2 a b)⟩
  | sin hs h0 i =>
    obtain ⟨h1, h2⟩ := i (WF.sin_iff.1 w)
    exact ⟨safeD_sin.2 ⟨av hs (WF.sin_iff.1 w) h0, h1⟩, fun a b => sub1 (fun h => by expr_inj at h) (h2 a b)⟩
  | cos hs h0 i =>
    obtain ⟨h1, h2⟩ := i (WF.cos_iff.1 w)
    exact ⟨safeD_cos.2 ⟨av hs (WF.cos_iff.1 w) h0, h1⟩, fun a b => sub1 (fun h => by expr_inj at h) (h2 a b)⟩
  | add _ _ i j =>
    obtain ⟨h1, h2⟩ := i (WF.add_iff.1 w).1
    obtain ⟨h3, h4⟩ := j (WF.add_iff.1 w).2
    exact ⟨safeD_add.2 ⟨h1, h3⟩, fun a b => sub2 (fun h => by expr_inj at h) (h2 a b) (h4 a b)⟩
  | sub _ _ i j =>
    obtain ⟨h1, h2⟩ := i (WF.sub_iff.1 w).1
    obtain ⟨h3, h4⟩ := j (WF.sub_iff.1 w).2
    exact ⟨safeD_sub.2 ⟨h1, h3⟩, fun a b => sub2 (fun h => by expr_inj at h) (h2 a b) (h4 a b)⟩
  | mul _ _ i j =>
    obtain ⟨h1, h2⟩ := i (WF.mul_iff.1 w).1
    obtain ⟨h3, h4⟩ := j (WF.mul_iff.1 w).2
    exact ⟨safeD_mul.2 ⟨h1, h3⟩, fun a b => sub2 (fun h => by expr_inj at h) (h2 a b) (h4 a b)⟩
  | div _ _ _ i j =>
    obtain ⟨h1, h2⟩ := i (WF.div_iff.1 w).1
    obtain ⟨h3, h4⟩ := j (WF.div_iff.1 w).2
    exact ⟨safeD_div.2 ⟨h1, h3⟩, fun a b => sub2 (fun h => by expr_inj at h) (h2 a b) (h4 a b)⟩

/-- C73: and the formal coefficients are those of the real function: f⁽ᵏ⁾(p)/k!. -/
theorem C73_true (m m' : Mode) (e : Expr F) (he : Built m e) (v : SmartNum F) (hv : v.Reachable m') (p : ℚ)
    (hp : v.exact? = some p) (x : Variable) (f : ℚ⟦X⟧) (hf : HasSeries x p e f) (n : UInt64) (t : PartialExpansion F)
    (h : e.taylorExpansion .strict x (ofNum v) n = .ok t) (k : ℕ) (hk : k ≤ n.toNat) (env : Env) :
    iteratedDeriv k (fn SmartNum.exactReal env x e) p / (k.factorial : ℝ) = ((coeff k f : ℚ) : ℝ) := by
  have hpt : ∀ env : Env, denote SmartNum.exactReal env (ofNum v) = some (p : ℝ) := fun env => by
    rw [denote_ofNum, exactReal_of_exact hp hv.valid]
  have hE : env.set x p ∈ AtPoint SmartNum.exactReal x (ofNum v) := ⟨env, p, hpt env, rfl⟩
  obtain ⟨h1, h2⟩ := hf.safe he.valid env hE
  obtain ⟨c, hc, hvc, hc'⟩ := series_coefficient m m' e he v hv p hp x f hf n t h k hk
  obtain ⟨c2, g1, g2, -⟩ := C34_coefficients m m' e (ofNum v) he (.num _ hv) x n t h (safeD_ofNum v).1 h1
    (fun a b hs => absurd hs (h2 a b)) env p _ (hpt env) (hf.value env he.valid)
    (fun s hs a b he => absurd (he ▸ hs) (h2 a b)) k hk
  rw [hc] at g1
  cases g1
  exact (g2 _ (by rw [denote_ofNum, exactReal_of_exact hc' hvc])).symm

/-- C73: an instance: 1/(1-x) at 0 is the geometric series: in an expansion to any order in which nothing wraps every
coefficient is the number 1. -/
theorem C73_geometric (x : Variable) (n : UInt64) (t : PartialExpansion F)
    (h : ((ofI64 1).div ((ofI64 1).sub (ofVar x)) : Expr F).taylorExpansion .strict x (ofI64 0) n = .ok t) (k : ℕ)
    (hk : k ≤ n.toNat) : ∃ c : SmartNum F, t.coefficient[k]? = some (ofNum c) ∧ c.exact? = some 1 := by
  have h1 : constantCoeff ((1 : ℚ⟦X⟧) - (C 0 + X)) ≠ 0 := by simp
  have hs : HasSeries x 0 ((ofI64 1).div ((ofI64 1).sub (ofVar x)) : Expr F) (mk 1) := by
    refine (HasSeries.div .one (.sub .one .var) h1).congr ?_
    rw [eq_comm, PowerSeries.eq_mul_inv_iff_mul_eq h1]
    simpa using mk_one_mul_one_sub_eq_one ℚ
  have hb : ∀ i, (SmartNum.ofI64 i : SmartNum F).Reachable .strict := fun i => .ofI64 i
  obtain ⟨c, hc, he⟩ := C73_series .strict .strict _ (.div _ _ (.num _ (hb _)) (.sub _ _ (.num _ (hb _)) (.var _)))
    (.ofI64 0) (hb 0) 0 rfl x _ hs n t h k hk
  exact ⟨c, hc, by rw [he]; simp⟩

theorem exp_subst_log : (PowerSeries.exp ℚ).subst (log ℚ) = (1 + X : ℚ⟦X⟧) := by
  have h0 : constantCoeff (log ℚ) = 0 := constantCoeff_log
  have hx : constantCoeff (1 + X : ℚ⟦X⟧) ≠ 0 := by simp
  have hl : (1 + X : ℚ⟦X⟧) * d⁄dX ℚ (log ℚ) = 1 := by
    rw [deriv_log]
    ext n
    rw [add_mul, one_mul, _root_.map_add, coeff_one]
    cases n with
    | zero => simp
    | succ n => rw [coeff_succ_X_mul, coeff_mk, coeff_mk]; simp [pow_succ]
  have key : (PowerSeries.exp ℚ).subst (log ℚ) * (1 + X : ℚ⟦X⟧)⁻¹ = 1 := by
    refine derivative.ext ?_ ?_
    · rw [Derivation.leibniz, derivative_inv', der_exp_subst h0]
      have hc := PowerSeries.inv_mul_cancel (1 + X : ℚ⟦X⟧) hx
      simp only [smul_eq_mul, _root_.map_add, derivative_X, PowerSeries.derivative_one, zero_add, mul_one]
      linear_combination ((PowerSeries.exp ℚ).subst (log ℚ) * (1 + X : ℚ⟦X⟧)⁻¹ ^ 2) * hl -
        ((PowerSeries.exp ℚ).subst (log ℚ) * (1 + X : ℚ⟦X⟧)⁻¹ * d⁄dX ℚ (log ℚ)) * hc
    · rw [_root_.map_mul, constantCoeff_subst_of_zero h0]; simp
  have := congrArg (· * (1 + X : ℚ⟦X⟧)) key
  simpa [mul_assoc, PowerSeries.inv_mul_cancel (1 + X : ℚ⟦X⟧) hx] using this

/-- C73: ln(1+x) at 0 is the Mercator series: coefficient `k ≥ 1` is (-1)^(k+1)/k. -/
theorem C73_log (x : Variable) (n : UInt64) (t : PartialExpansion F)
    (h : (((ofI64 1).add (ofVar x)).ln : Expr F).taylorExpansion .strict x (ofI64 0) n = .ok t) (k : ℕ)
    (hk : k ≤ n.toNat) : ∃ c : SmartNum F, t.coefficient[k]? = some (ofNum c) ∧
      c.exact? = some (if k = 0 then 0 else (-1 : ℚ) ^ (k + 1) / k) := by
  have hs : HasSeries x 0 (((ofI64 1).add (ofVar x)).ln : Expr F) (log ℚ) :=
    .ln ((HasSeries.add .one .var).congr (by simp)) (constantCoeff_log) exp_subst_log
  have hb : ∀ i, (SmartNum.ofI64 i : SmartNum F).Reachable .strict := fun i => .ofI64 i
  obtain ⟨c, hc, he⟩ := C73_series .strict .strict _ (.ln _ (.add _ _ (.num _ (hb _)) (.var _)))
    (.ofI64 0) (hb 0) 0 rfl x _ hs n t h k hk
  exact ⟨c, hc, by rw [he, coeff_log]; simp⟩

/-- C73: runs as in these instances exist: both expansions succeed to order 4; and tan x = sin x / cos x at 0 has the
coefficients 0, 1, 0, 1/3. -/
theorem C73_example :
    let x : Expr Unit := newVariable "x"
    (∃ t, ((ofI64 1).div ((ofI64 1).sub x)).taylorExpansion .strict ⟨"x"⟩ (ofI64 0) 4 = .ok t) ∧
    (∃ t, ((ofI64 1).add x).ln.taylorExpansion .strict ⟨"x"⟩ (ofI64 0) 4 = .ok t) ∧
    (∃ f, HasSeries ⟨"x"⟩ 0 (x.sin.div x.cos) f) ∧ Built .strict (x.sin.div x.cos) ∧
    ∃ t, (x.sin.div x.cos).taylorExpansion .strict ⟨"x"⟩ (ofI64 0) 3 = .ok t ∧
      t.coefficient = [ofI64 0, ofI64 1, ofI64 0, ofNum ⟨.rational ⟨1, 1, 3⟩, .nothing⟩] := by
  intro x
  have hx : HasSeries ⟨"x"⟩ 0 x (C 0 + X) := .var
  have bx : Built .strict x := .var _
  have h0 : constantCoeff (C 0 + X : ℚ⟦X⟧) = 0 := by simp
  refine ⟨Out.exists_of_isOk (by krfl), Out.exists_of_isOk (by krfl),
    ⟨_, .div (.sin hx h0) (.cos hx h0) ?_⟩, .div _ _ (.sin _ bx) (.cos _ bx), ?_⟩
  · rw [constantCoeff_subst_of_zero h0, constantCoeff_cos_series]; simp
  obtain ⟨t, ht⟩ := Out.exists_of_isOk (o := (x.sin.div x.cos).taylorExpansion .strict ⟨"x"⟩ (ofI64 0) 3) (by krfl)
  refine ⟨t, ht, ?_⟩
  have : (match (x.sin.div x.cos).taylorExpansion .strict ⟨"x"⟩ (ofI64 0) 3 with
    | .ok t => decide (t.coefficient = [ofI64 0, ofI64 1, ofI64 0, ofNum ⟨.rational ⟨1, 1, 3⟩, .nothing⟩])
    | _ => false) = true := by decide +kernel
  rw [ht] at this
  simpa using this

end SymRust
