import Verif.Proofs.EncloseLimit
import Verif.Proofs.EncloseLHopital
import Verif.Props.Enclose
import Verif.Spec.LimitSem
import Verif.Proofs.TaylorSem
/-! # Rounding errors of limits: property C65 -/

namespace SymRust
variable {F : Type} [FloatOps F] (R : Rounding F)
open Expr Rounding Filter Topology

/-- C65: a successful limit at a point where every rounded evaluation of the expression is defined: the exact value `r`
at the point is the true limit and lies in every enclosure `S` of the expression, the variable ranging over an enclosure
of the point.  Infinitesimal is returned only if `r = 0`, Infinity never, and a Normal answer and its `to_f64` (if it is
a number) lie in `S`. -/
theorem C65_rounding (m m' : Mode) (e pt : Expr F) (he : Built m e) (hpt : Built m' pt) (x : Variable) (k : UInt64)
    (z : LimitExpression F) (h : LimitIs .strict e x pt k z)
    (hsp : R.Clear Set.univ pt) (hs : R.Clear (R.Around x pt) e) (hl : NoLnIntoBase x pt e)
    (V : Ranges) (T S : Set ℝ) (hT : R.Encloses V pt T) (hS : R.Encloses (V.set x T) e S)
    (env : Env) (hV : env ∈ V.envs) (ht : ∀ p, denote R.real? env pt = some p → R.SinZero env x pt p e) :
    ∃ p r, denote R.real? env pt = some p ∧ denote R.real? (env.set x p) e = some r ∧ r ∈ S ∧
      (PowOK R.real? (env.set x p) x e → Tendsto (fn R.real? env x e) (𝓝[≠] p) (𝓝 r)) ∧
      ((z = .infinitesimal ∧ r = 0) ∨ ∃ c, z = .normal c ∧ (∃ w ∈ S, denote R.real? env c = some w) ∧
        ∀ n, c = ofNum n → ∃ f ∈ S, R.val n.toF64 = some f) := by
  have he : WF SmartNum.Valid e := he.mono fun _ hn => hn.valid
  have hpt : WF SmartNum.Valid pt := hpt.mono fun _ hn => hn.valid
  have cT := hT.cov hpt
  have cS := hS.cov he
  obtain ⟨p, hpT, hp⟩ := cT.value hV
  obtain ⟨r, hrS, hr⟩ := cS.value (env_set_mem hV hpT x)
  have hlC : LnOK x pt e := by
    rintro s hs a b rfl hx
    exact noLn_iff.1 (hl a b hs hx)
  obtain ⟨n, h⟩ := h
  have hm := limit_meansC cT hpt (hsp.clearC hpt) hV hp he (hs.clearC_at hpt he) hlC cS
    (fun h0 s hs a ha => ht p hp h0 a (ha ▸ hs)) h
  refine ⟨p, r, hp, hr, hrS, fun hpow => ?_, ?_⟩
  · obtain ⟨g, h1, h2, h3⟩ := denote_smooth he.tree hr hpow 1
    simp only [Env.set_same, Env.set_set] at h1 h2 h3
    rw [← h3]
    refine (h2.continuousAt.tendsto.congr' ?_).mono_left nhdsWithin_le_nhds
    filter_upwards [h1] with t ht
    rw [fn, ht]; rfl
  · cases z with
    | infinitesimal => exact .inl ⟨rfl, (limit_exact hpt he hp hr hsp hs hl (ht p hp) h).1 rfl⟩
    | normal c => exact .inr ⟨c, rfl, hm.1.results hV⟩
    | _ => exact hm.elim

/-- C65 for arithmetic expressions at a number: Infinitesimal is returned only if the exact value `r` at the point is 0,
otherwise the answer is a number whose float is within `14 u K A` of `r`, where `K` counts the operations
in the expression at the point and `A` is its value without cancellation; and `r` is the true limit. -/
theorem C65_arithmetic (m m' : Mode) (e : Expr F) (v : SmartNum F) (he : Built m e) (hv : v.Reachable m') (x : Variable)
    (ha : Arithmetic x e) (k : UInt64) (z : LimitExpression F) (h : LimitIs .strict e x (ofNum v) k z)
    (p : ℝ) (hp : R.real? v = some p) (r A : ℝ) (K : ℕ) (hr : R.Arith (e.replace x (ofNum v)) r A K)
    (hK : 27 * R.u * K ≤ 1) :
    ((z = .infinitesimal ∧ r = 0) ∨
      ∃ c f, z = .normal (ofNum c) ∧ R.val c.toF64 = some f ∧ |f - r| ≤ 14 * R.u * K * A) ∧
    ∀ env, denote R.real? (env.set x p) e = some r ∧ Tendsto (fn R.real? env x e) (𝓝[≠] p) (𝓝 r) := by
  obtain ⟨tr, nf, ox⟩ := ha.facts
  have main : ∀ env : Env, ((z = .infinitesimal ∧ r = 0) ∨ ∃ c, z = .normal c ∧
        ∀ n, c = ofNum n → ∃ f, R.val n.toF64 = some f ∧ |f - r| ≤ 14 * R.u * K * A) ∧
      denote R.real? (env.set x p) e = some r ∧ Tendsto (fn R.real? env x e) (𝓝[≠] p) (𝓝 r) := by
    intro env
    obtain ⟨E, hw, hE⟩ := hr.within env hK
    have hA : (R.grow K - 1) * A ≤ 14 * R.u * K * A :=
      mul_le_mul_of_nonneg_right (by have := grow_le hK; linarith) ((abs_nonneg r).trans hr.abs_le.1)
    have hE := hE.trans hA
    have hS := hw.encloses.unreplace tr hp
    obtain ⟨p', r', h2, h3, h4, h5, h1⟩ := C65_rounding R m m' e (ofNum v) he (.num _ hv) x k z h
      ((noFn_ofNum v).clear R _) (nf.clear R _) (fun a b hab => absurd rfl ((nf _ hab).pow a b)) (point env) (R.blur p) _
      (.num v p _ hp subset_rfl) hS env (mem_point env) (fun _ _ _ a ha => absurd rfl ((nf _ ha).sin a))
    rw [denote_ofNum, hp] at h2
    cases h2
    have hr' := hw.denote
    rw [denote_replace tr (by rw [denote_ofNum]; exact hp), h3] at hr'
    cases hr'
    refine ⟨?_, h3, h5 fun s hs a b hab => absurd hab ((nf s hs).pow a b)⟩
    rcases h1 with h1 | ⟨c, h6, -, h7⟩
    · exact .inl h1
    · refine .inr ⟨c, h6, fun n hn => ?_⟩
      obtain ⟨f, h8, h9⟩ := h7 n hn
      exact ⟨f, h9, le_trans h8 hE⟩
  refine ⟨?_, fun env => (main env).2⟩
  obtain ⟨n, hn⟩ := h
  have num := limit_number ⟨tr, nf, ox⟩ hn
  rcases (main fun _ => 0).1 with h | ⟨c, rfl, h⟩
  · exact .inl h
  · obtain ⟨c, rfl⟩ := num
    obtain ⟨f, h1, h2⟩ := h c rfl
    exact .inr ⟨c, f, rfl, h1, h2⟩

/-- C65: at a number, a Normal limit of an arithmetic expression is a number, L'Hôpital steps included. -/
theorem C65_number (m : Mode) (e : Expr F) (v : SmartNum F) (x : Variable) (ha : Arithmetic x e) (k : UInt64)
    (c : Expr F) (h : LimitIs m e x (ofNum v) k (.normal c)) : ∃ n, c = ofNum n := by
  obtain ⟨n, hn⟩ := h
  exact limit_number ha.facts hn

/-- An instance: the limit of `(pi * x) / (x + 1)` at 1/3 is a number, its double is within 2^-40 of π/4, and π/4 is the
true limit. -/
theorem C65_example : let e : Expr Float.Model := (Expr.pi.mul (newVariable "x")).div ((newVariable "x").add Expr.one)
    let p : SmartNum Float.Model := ⟨.rational ⟨1, 1, 3⟩, .nothing⟩
    (∃ c f, LimitIs .strict e ⟨"x"⟩ (ofNum p) 0 (.normal (ofNum c)) ∧
      F64.value c.toF64 = some f ∧ |f - Real.pi / 4| ≤ 2⁻¹ ^ 40) ∧
    ∀ env, Tendsto (fn F64.rounding.real? env ⟨"x"⟩ e) (𝓝[≠] (1 / 3)) (𝓝 (Real.pi / 4)) := by
  intro e p
  have hb : Built .strict e := .div _ _ (.mul _ _ (.num _ .pi) (.var ⟨"x"⟩)) (.add _ _ (.var ⟨"x"⟩) (.num _ (.ofI64 1)))
  have hp : p.Reachable .strict := .newRational 1 1 3 p (by rfl)
  obtain ⟨c, hc⟩ : ∃ c, LimitIs .strict e ⟨"x"⟩ (ofNum p) 0 (.normal c) := by
    have : (match limit .strict ⟨"x"⟩ (ofNum p) 0 5 e with | .ok (.normal _) => true | _ => false) = true := by krfl
    split at this
    · rename_i c h; exact ⟨c, 5, h⟩
    · simp at this
  have pv : F64.rounding.real? p = some (1 / 3) := by
    have : p.exact? = some (1 / 3) := by
      have h1 : p.exact? = some (RationalNum.value ⟨1, 1, 3⟩) := rfl
      rw [h1, RationalNum.value]
      show some (((Int64.toInt 1 : ℤ) : ℚ) * ((UInt64.toNat 1 : ℕ) : ℚ) / ((UInt64.toNat 3 : ℕ) : ℚ)) = _
      rw [show Int64.toInt 1 = 1 from by decide, show UInt64.toNat 1 = 1 from rfl, show UInt64.toNat 3 = 3 from rfl]
      norm_num
    simp [real?, this, show p.tag = .nothing from rfl, show p.value = .rational ⟨1, 1, 3⟩ from rfl]
  have hpi := Real.pi_le_four
  have pp := Real.pi_pos
  have rg : ∀ {A : ℝ}, 1 / 4 ≤ A → A ≤ 1000 → F64.rounding.InRange A := F64.inRange
  have ap : F64.rounding.Arith Expr.pi Real.pi 4 1 :=
    .num _ Real.pi 4 (by simp [real?, SmartNum.pi]) (by rw [abs_of_pos pp]; exact hpi) (rg (by norm_num) (by norm_num))
  have a1 : F64.rounding.Arith Expr.one 1 1 1 :=
    .num _ 1 1 F64.rounding.o1 (by norm_num) (rg (by norm_num) (by norm_num))
  have ax : F64.rounding.Arith (ofNum p) (1 / 3) (1 / 3) 1 :=
    .num _ _ _ pv (by rw [abs_of_pos]; norm_num) (rg (by norm_num) (by norm_num))
  have l1 := Arith.mul _ _ _ _ 4 (1 / 3) 2 _ _ ap ax (by norm_num) (rg (by norm_num) (by norm_num))
  have l2 := Arith.add _ _ _ _ (1 / 3) 1 |1 / 3 + 1| _ _ ax a1 (by rw [abs_of_pos] <;> norm_num)
    (rg (by rw [abs_of_pos] <;> norm_num) (by rw [abs_of_pos] <;> norm_num))
  have l3 := Arith.div _ _ _ _ 2 2 _ _ l1 l2 (by norm_num) (by rw [abs_of_pos] <;> norm_num) (rg (by norm_num) (by norm_num))
  have eq : e.replace ⟨"x"⟩ (ofNum p) = (Expr.pi.mul (ofNum p)).div ((ofNum p).add Expr.one) := by
    show ((Expr.pi.mul (ofVar ⟨"x"⟩)).div ((ofVar ⟨"x"⟩).add Expr.one)).replace _ _ = _
    simp [Expr.pi, Expr.one]
  rw [← eq] at l3
  have e2 : Real.pi * (1 / 3) / (1 / 3 + 1) = Real.pi / 4 := by ring
  rw [e2] at l3
  obtain ⟨h1, h2⟩ := C65_arithmetic F64.rounding .strict .strict e p hb hp ⟨"x"⟩
    (.div (.mul (.num _) .var) (.add .var (.num _))) 0 _ hc _ pv _ _ _ l3 (by
      show (27 : ℝ) * 2⁻¹ ^ 53 * _ ≤ 1; norm_num)
  refine ⟨?_, fun env => (h2 env).2⟩
  rcases h1 with ⟨h1, -⟩ | ⟨c', f, h3, h4, h5⟩
  · cases h1
  · cases h3
    refine ⟨c', f, hc, h4, h5.trans ?_⟩
    show (14 : ℝ) * 2⁻¹ ^ 53 * _ * 2 ≤ _
    norm_num

end SymRust
