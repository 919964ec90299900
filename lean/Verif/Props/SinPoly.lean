import Verif.Proofs.SinPoly
import Verif.Props.PosPoly
/-! # C71: quotients with sines at 0 -/

namespace SymRust
variable {F : Type} [FloatOps F]
open Expr Filter Topology

omit [FloatOps F] in
theorem PosPoly.no_sin {x : Variable} {i : ℕ} {e : Expr F} (h : PosPoly x i e) :
    Everywhere (fun s => ∀ a : Expr F, s ≠ a.sin) e := by
  induction h with
  | num n => exact everywhere_ofNum.2 fun a h => by expr_inj at h
  | self => exact everywhere_ofVar.2 fun a h => by expr_inj at h
  | other v => exact everywhere_ofVar.2 fun a h => by expr_inj at h
  | add _ _ i j => exact everywhere_add.2 ⟨fun a h => by expr_inj at h, i, j⟩
  | mul _ _ i j => exact everywhere_mul.2 ⟨fun a h => by expr_inj at h, i, j⟩

omit [FloatOps F] in
theorem SinPoly.level {x : Variable} {i : ℕ} {e : Expr F} (h : SinPoly x i e) :
    ∃ s ≤ 1, TrigPoly x i s e ∧ (HasSin e → s = 1) ∧ (s = 0 → PosPoly x i e) := by
  obtain ⟨s, hs, ht⟩ := h.trig
  refine ⟨s, hs, ht, fun ⟨a, ha⟩ => ?_, fun h => ht.poly h⟩
  by_contra h0
  exact (ht.poly (by omega)).no_sin _ ha a rfl

omit [FloatOps F] in
theorem TrigPoly.hasSin {x : Variable} {i s : ℕ} {e : Expr F} (h : TrigPoly x i s e) (hs : s = 1) : HasSin e := by
  induction h with
  | num | self | other | cos => omega
  | @add _ _ s t _ _ _ _ i j =>
    rcases (by omega : s = 1 ∨ t = 1) with h | h
    · obtain ⟨c, hc⟩ := i h
      exact ⟨c, .child _ _ _ (by simp) hc⟩
    · obtain ⟨c, hc⟩ := j h
      exact ⟨c, .child _ _ _ (by simp) hc⟩
  | @mul _ _ s t _ _ _ _ i j =>
    rcases (by omega : s = 1 ∨ t = 1) with h | h
    · obtain ⟨c, hc⟩ := i h
      exact ⟨c, .child _ _ _ (by simp) hc⟩
    · obtain ⟨c, hc⟩ := j h
      exact ⟨c, .child _ _ _ (by simp) hc⟩
  | sin => exact ⟨_, .refl⟩

/-- The answers that fit the orders `i` and `j`. -/
def OrderAnswer (x : Variable) (i j : ℕ) (o : LOut (LimitExpression F)) : Prop :=
  (j < i ∧ o = .ok .infinitesimal) ∨ (i < j ∧ o = .ok .infinity) ∨ (i = j ∧ ∃ c d,
    o = .ok (.normal (c.div d)) ∧ WF SmartNum.Valid c ∧ WF SmartNum.Valid d ∧ PosPoly x 0 c ∧ PosPoly x 0 d)

/-- One round of the L'Hôpital loop. -/
theorem TrigPoly.step {x : Variable} {n0 : SmartNum F} {k : UInt64} (h0 : n0.isZero = true) (hv0 : n0.Valid) (n N : Nat)
    {i j s t : ℕ} {l r : Expr F} (hl : WF SmartNum.Valid l) (hr : WF SmartNum.Valid r) (h1 : TrigPoly x i s l) (h2 : TrigPoly x j t r) :
    let o := divLoop .strict (Expr.limit .strict x (ofNum n0) k n) x (N + 1) l r
    o = .fuel ∨ o = .panic ∨ (min i j = 0 ∧ OrderAnswer x i j o) ∨
    (1 ≤ min i j ∧ ∃ l' r', Der .strict x l l' ∧ Der .strict x r r' ∧
      o = divLoop .strict (Expr.limit .strict x (ofNum n0) k n) x N l' r') := by
  intro o
  simp only [o, Expr.divLoop]
  rcases h1.limit (k := k) h0 hv0 hl n with h | h | ⟨hi, h⟩ | ⟨rfl, c, h, vc, pc⟩
  · rw [h]; exact .inl rfl
  · rw [h]; exact .inr (.inl rfl)
  · rcases h2.limit (k := k) h0 hv0 hr n with h' | h' | ⟨hj, h'⟩ | ⟨rfl, d, h', vd, pd⟩
    · rw [h, h']; exact .inl rfl
    · rw [h, h']; exact .inr (.inl rfl)
    · rw [h, h']
      simp only [LOut.ok_bind, LimitExpression.div]
      cases e1 : l.derivative .strict x with
      | err e => exact (derivative_no_err hl.tree e e1).elim
      | panic => exact .inr (.inl rfl)
      | ok l' =>
        cases e2 : r.derivative .strict x with
        | err e => exact (derivative_no_err hr.tree e e2).elim
        | panic => exact .inr (.inl rfl)
        | ok r' =>
          exact .inr (.inr (.inr ⟨by omega, l', r', der_of_derivative hl.tree e1, der_of_derivative hr.tree e2, rfl⟩))
    · rw [h, h']
      simp only [LOut.ok_bind, LimitExpression.div, pd.not_zero vd]
      exact .inr (.inr (.inl ⟨by omega, .inl ⟨by omega, rfl⟩⟩))
  · rcases h2.limit (k := k) h0 hv0 hr n with h' | h' | ⟨hj, h'⟩ | ⟨rfl, d, h', vd, pd⟩
    · rw [h, h']; exact .inl rfl
    · rw [h, h']; exact .inr (.inl rfl)
    · rw [h, h']
      simp only [LOut.ok_bind, LimitExpression.div, pc.not_zero vc]
      exact .inr (.inr (.inl ⟨by omega, .inr (.inl ⟨by omega, rfl⟩)⟩))
    · rw [h, h']
      exact .inr (.inr (.inl ⟨by omega, .inr (.inr ⟨rfl, c, d, rfl, vc, vd, pc, pd⟩)⟩))

theorem OrderAnswer.lower {x : Variable} {i j : ℕ} {o : LOut (LimitExpression F)} (h : OrderAnswer x (i - 1) (j - 1) o)
    (hi : 1 ≤ min i j) : OrderAnswer x i j o := by
  rcases h with ⟨g, h⟩ | ⟨g, h⟩ | ⟨g, h⟩
  · exact .inl ⟨by omega, h⟩
  · exact .inr (.inl ⟨by omega, h⟩)
  · exact .inr (.inr ⟨by omega, h⟩)

theorem TrigPoly.loop {x : Variable} {n0 : SmartNum F} {k : UInt64} (h0 : n0.isZero = true) (hv0 : n0.Valid) (n N : Nat)
    {i j s t : ℕ} {l r : Expr F} (hl : WF SmartNum.Valid l) (hr : WF SmartNum.Valid r) (h1 : TrigPoly x i s l) (h2 : TrigPoly x j t r)
    (hs : s ≤ 1) (ht : t ≤ 1) (hst : s = 1 ∨ t = 1) :
    let o := divLoop .strict (Expr.limit .strict x (ofNum n0) k n) x N l r
    o = .fuel ∨ o = .panic ∨ (N ≤ min i j ∧ o = .err) ∨ (min i j < N ∧ min i j ≤ 1 ∧ OrderAnswer x i j o) := by
  intro o
  cases N with
  | zero => exact .inr (.inr (.inl ⟨Nat.zero_le _, rfl⟩))
  | succ N =>
    rcases h1.step (k := k) h0 hv0 n N hl hr h2 with h | h | ⟨g, h⟩ | ⟨g, l', r', d1, d2, ho⟩
    · exact .inl h
    · exact .inr (.inl h)
    · exact .inr (.inr (.inr ⟨by omega, by omega, h⟩))
    have wl := d1.wf (numClosed_valid _) hl
    have wr := d2.wf (numClosed_valid _) hr
    obtain ⟨s', p1, q1⟩ := h1.low (by omega) hs hl d1
    obtain ⟨t', p2, q2⟩ := h2.low (by omega) ht hr d2
    cases N with
    | zero => exact .inr (.inr (.inl ⟨by omega, ho⟩))
    | succ N =>
      rcases p1.step (k := k) h0 hv0 n N wl wr p2 with h | h | ⟨g', h⟩ | ⟨g', l'', r'', e1, e2, ho'⟩
      · exact .inl (ho.trans h)
      · exact .inr (.inl (ho.trans h))
      · refine .inr (.inr (.inr ⟨by omega, by omega, ?_⟩))
        have := h.lower g
        rwa [← ho] at this
      replace ho := ho.trans ho'
      cases N with
      | zero => exact .inr (.inr (.inl ⟨by omega, ho⟩))
      | succ N =>
        have hM : ∀ {e d : Expr F} {i : ℕ} {s : ℕ}, WF SmartNum.Valid e → TrigPoly x i s e → s = 2 → Der .strict x e d →
            Expr.limit .strict x (ofNum n0) k n d = .fuel ∨ Expr.limit .strict x (ofNum n0) k n d = .panic := by
          intro e d i s we pe hs hd
          exact (pe.minus we hs hd).limit (pe.plain_der hd) n
        simp only [o]
        rw [ho]
        simp only [Expr.divLoop]
        rcases hst with h | h
        · rcases hM wl p1 (q1 h) e1 with h | h
          · rw [h]; exact .inl rfl
          · rw [h]; exact .inr (.inl rfl)
        · rcases (p1.plain_der e1).limit (m := .strict) (x := x) (pt := ofNum n0) (k := k) n with h' | h' | h' | ⟨c, h'⟩
          · rw [h']; exact .inl rfl
          · rw [h']; exact .inr (.inl rfl)
          all_goals
            rcases hM wr p2 (q2 h) e2 with g | g
            · rw [h', g]; exact .inl rfl
            · rw [h', g]; exact .inr (.inl rfl)

theorem sinPoly_answer {m m' : Mode} {f g pt : Expr F} {x : Variable} {k : UInt64} {i j : ℕ} (hf : Built m f) (hg : Built m g)
    (hpt : Built m' pt) (hz : pt.isZero = true) (pf : SinPoly x i f) (pg : SinPoly x j g) (hs : HasSin f ∨ HasSin g) :
    LimitPanics .strict (f.div g) x pt k ∨
    (k.toNat < min i j ∧ LimitErr .strict (f.div g) x pt k) ∨
    (min i j ≤ k.toNat ∧ min i j ≤ 1 ∧ ((j < i ∧ LimitIs .strict (f.div g) x pt k .infinitesimal) ∨
      (i < j ∧ LimitIs .strict (f.div g) x pt k .infinity) ∨
      (i = j ∧ ∃ c, LimitIs .strict (f.div g) x pt k (.normal c) ∧
        ∀ env : Env, (∀ v, 0 < env v) → ∃ v, denote SmartNum.exactReal env c = some v))) := by
  obtain ⟨n, hn⟩ : End.Ends .strict x pt k (f.div g) := End.ends hpt.tree (.div _ _ hf.valid hg.valid)
  obtain ⟨n0, rfl, h0⟩ := isZero_num hpt.tree hz
  have hv0 := WF.num_iff.1 hpt.valid
  obtain ⟨s, hs1, ts, us, -⟩ := pf.level
  obtain ⟨t, ht1, tt, ut, -⟩ := pg.level
  cases n with
  | zero => exact absurd rfl hn
  | succ n =>
    rw [limit_div] at hn
    have hl := limit_div .strict x (ofNum n0) k n f g
    rcases ts.loop (k := k) h0 hv0 n (k.toNat + 1) hf.valid hg.valid tt hs1 ht1 (hs.imp us ut) with h | h | ⟨h1, h⟩ | ⟨h1, h2, h⟩
    · rw [h] at hn; exact absurd rfl hn
    · exact .inl ⟨n + 1, by rw [hl, h]; rfl⟩
    · exact .inr (.inl ⟨by omega, n + 1, by rw [hl, h]; rfl⟩)
    · rcases h with ⟨h3, h⟩ | ⟨h3, h⟩ | ⟨h3, c, d, h, vc, vd, pc, pd⟩
      · exact .inr (.inr ⟨by omega, h2, .inl ⟨h3, n + 1, by rw [hl, h]; rfl⟩⟩)
      · exact .inr (.inr ⟨by omega, h2, .inr (.inl ⟨h3, n + 1, by rw [hl, h]; rfl⟩)⟩)
      · cases ha : (c.div d).numAggregate .strict with
        | panic => exact .inl ⟨n + 1, by rw [hl, h]; simp [finish, ha]⟩
        | ok q => exact .inr (.inr ⟨by omega, h2, .inr (.inr ⟨h3, q, ⟨n + 1, by rw [hl, h]; simp [finish, ha]⟩, fun env hp =>
          quotient_value vc vd pc pd (agg_of_numAggregate (.div _ _ vc.tree vd.tree) ha) hp⟩)⟩)

/-- C71: the order of `SinPoly` is what it is meant to be. -/
theorem C71_order (m : Mode) (e : Expr F) (x : Variable) (i : ℕ) (he : Built m e) (h : SinPoly x i e) (env : Env)
    (hp : ∀ v, 0 < env v) :
    ∃ g : ℝ → ℝ, Continuous g ∧ 0 < g 0 ∧ ∀ t, denote SmartNum.exactReal (env.set x t) e = some (t ^ i * g t) := by
  obtain ⟨s, -, ht⟩ := h.trig
  exact ht.value (fun _ hn _ hq => exactReal_of_exact hq hn) he.valid hp

/-- C71: let `f` and `g` be written with positive exact numbers, variables, `+`, `*` and sines of such expressions that
are 0 at x = 0, at least one with a sine, of orders `i` and `j`.  A run of the limit of f/g at 0 in which no integer
overflows answers if min i j is at most 1 and at most order_try: Infinitesimal if i > j, Infinity if i < j, Normal if
i = j.  Otherwise it fails with Err, which needs order_try < min i j, or panics (C71_every_build says when). -/
theorem C71_answer (m m' : Mode) (f g pt : Expr F) (x : Variable) (k : UInt64) (i j : ℕ) (hf : Built m f) (hg : Built m g)
    (hpt : Built m' pt) (hz : pt.isZero = true) (pf : SinPoly x i f) (pg : SinPoly x j g) (hs : HasSin f ∨ HasSin g) :
    LimitPanics .strict (f.div g) x pt k ∨
    (k.toNat < min i j ∧ LimitErr .strict (f.div g) x pt k) ∨
    (min i j ≤ k.toNat ∧ min i j ≤ 1 ∧ ((j < i ∧ LimitIs .strict (f.div g) x pt k .infinitesimal) ∨
      (i < j ∧ LimitIs .strict (f.div g) x pt k .infinity) ∨
      (i = j ∧ ∃ c, LimitIs .strict (f.div g) x pt k (.normal c)))) := by
  rcases sinPoly_answer (k := k) hf hg hpt hz pf pg hs with h | h | ⟨h, h0, h' | h' | ⟨h1, c, h2, -⟩⟩
  · exact .inl h
  · exact .inr (.inl h)
  · exact .inr (.inr ⟨h, h0, .inl h'⟩)
  · exact .inr (.inr ⟨h, h0, .inr (.inl h')⟩)
  · exact .inr (.inr ⟨h, h0, .inr (.inr ⟨h1, c, h2⟩)⟩)

/-- C71: and it does panic in every build, not because of overflow: if both orders are at least 2, one of the two
contains a sine, order_try is at least 2, and the second derivatives of `f` and `g` can be computed without overflow,
then the limit of f/g at 0 panics in debug and release builds alike. -/
theorem C71_aborts (b m m' : Mode) (f g pt f2 g2 : Expr F) (x : Variable) (k : UInt64) (i j : ℕ) (hf : Built m f) (hg : Built m g)
    (hpt : Built m' pt) (hz : pt.isZero = true) (pf : SinPoly x i f) (pg : SinPoly x j g) (hi : 2 ≤ i) (hj : 2 ≤ j)
    (hs : HasSin f ∨ HasSin g) (hk : 2 ≤ k.toNat) (hf2 : nthDerivative .strict f x 2 = .ok f2)
    (hg2 : nthDerivative .strict g x 2 = .ok g2) : LimitPanics b (f.div g) x pt k := by
  obtain ⟨s, hs1, ts, us, -⟩ := pf.level
  obtain ⟨t, ht1, tt, ut, -⟩ := pg.level
  obtain ⟨f1, hf1, hf2⟩ := Out.bind_eq_ok.1 hf2
  obtain ⟨g1, hg1, hg2⟩ := Out.bind_eq_ok.1 hg2
  obtain ⟨f0, hf0, hf1⟩ := Out.bind_eq_ok.1 hf1
  obtain ⟨g0, hg0, hg1⟩ := Out.bind_eq_ok.1 hg1
  cases hf0; cases hg0
  have up : ∀ {e d : Expr F}, Tree e → e.derivative .strict x = .ok d → e.derivative b x = .ok d := by
    intro e d te h
    rcases derivative_mono (Mode.strict_le b) te x with h' | h'
    · rw [h] at h'; cases h'
    · rw [← h', h]
  have df1 := der_of_derivative hf.tree hf1
  have dg1 := der_of_derivative hg.tree hg1
  have wf1 := df1.wf (numClosed_valid _) hf.valid
  have wg1 := dg1.wf (numClosed_valid _) hg.valid
  have df2 := der_of_derivative wf1.tree hf2
  have dg2 := der_of_derivative wg1.tree hg2
  obtain ⟨s', p1, q1⟩ := ts.low (by omega) hs1 hf.valid df1
  obtain ⟨t', p2, q2⟩ := tt.low (by omega) ht1 hg.valid dg1
  have key : ∀ n, limit b x pt k n (f.div g) = .fuel ∨ limit b x pt k n (f.div g) = .panic := by
    intro n
    cases n with
    | zero => exact .inl rfl
    | succ n =>
      rw [limit_div]
      obtain ⟨K, hK⟩ : ∃ K, k.toNat + 1 = K + 3 := ⟨k.toNat - 2, by omega⟩
      rw [hK]
      simp only [divLoop]
      rcases ts.limit_zero (m := b) (pt := pt) (k := k) hz (by omega) n with h | h | h
      · rw [h]; exact .inl rfl
      · rw [h]; exact .inr rfl
      rcases tt.limit_zero (m := b) (pt := pt) (k := k) hz (by omega) n with h' | h' | h'
      · rw [h, h']; exact .inl rfl
      · rw [h, h']; exact .inr rfl
      rw [h, h']
      simp only [LOut.ok_bind, LimitExpression.div, up hf.tree hf1, up hg.tree hg1, LOut.ofOut_ok]
      rcases p1.limit_zero (m := b) (pt := pt) (k := k) hz (by omega) n with h | h | h
      · rw [h]; exact .inl rfl
      · rw [h]; exact .inr rfl
      rcases p2.limit_zero (m := b) (pt := pt) (k := k) hz (by omega) n with h' | h' | h'
      · rw [h, h']; exact .inl rfl
      · rw [h, h']; exact .inr rfl
      rw [h, h']
      simp only [LOut.ok_bind, up wf1.tree hf2, up wg1.tree hg2, LOut.ofOut_ok]
      rcases hs with hs | hs
      · rcases (p1.minus wf1 (q1 (us hs)) df2).limit (m := b) (pt := pt) (k := k) (p1.plain_der df2) n with h | h
        · rw [h]; exact .inl rfl
        · rw [h]; exact .inr rfl
      · rcases (p1.plain_der df2).limit (m := b) (x := x) (pt := pt) (k := k) n with h' | h' | h' | ⟨c, h'⟩
        · rw [h']; exact .inl rfl
        · rw [h']; exact .inr rfl
        all_goals
          rcases (p2.minus wg1 (q2 (ut hs)) dg2).limit (m := b) (pt := pt) (k := k) (p2.plain_der dg2) n with h | h
          · rw [h', h]; exact .inl rfl
          · rw [h', h]; exact .inr rfl
  obtain ⟨n, hn⟩ : End.Ends b x pt k (f.div g) := End.ends hpt.tree (.div _ _ hf.valid hg.valid)
  exact ⟨n, (key n).resolve_left hn⟩

omit [FloatOps F] in
/-- The quotient of two functions of orders `i` and `j` at 0. -/
theorem order_quotient {x : Variable} {env : Env} {f g : Expr F} {i j : ℕ} {u w : ℝ → ℝ} (cu : Continuous u) (pu : 0 < u 0)
    (cw : Continuous w) (pw : 0 < w 0) (hu : ∀ t, denote SmartNum.exactReal (env.set x t) f = some (t ^ i * u t))
    (hw : ∀ t, denote SmartNum.exactReal (env.set x t) g = some (t ^ j * w t)) :
    (∀ᶠ t in 𝓝[≠] (0 : ℝ), fn SmartNum.exactReal env x (f.div g) t =
      fn SmartNum.exactReal env x f t / fn SmartNum.exactReal env x g t) ∧
    (j < i → Tendsto (fn SmartNum.exactReal env x (f.div g)) (𝓝[≠] 0) (𝓝 0)) ∧
    (i < j → Tendsto (fun t => |fn SmartNum.exactReal env x (f.div g) t|) (𝓝[≠] 0) atTop) := by
  have fu : ∀ t, fn SmartNum.exactReal env x f t = t ^ i * u t := fun t => by rw [fn, hu]; rfl
  have gw : ∀ t, fn SmartNum.exactReal env x g t = t ^ j * w t := fun t => by rw [fn, hw]; rfl
  have w0 : ∀ᶠ t in 𝓝[≠] (0 : ℝ), w t ≠ 0 :=
    ((cw.tendsto 0).eventually (isOpen_ne.mem_nhds pw.ne')).filter_mono nhdsWithin_le_nhds
  have hfg : ∀ᶠ t in 𝓝[≠] (0 : ℝ), fn SmartNum.exactReal env x (f.div g) t =
      fn SmartNum.exactReal env x f t / fn SmartNum.exactReal env x g t := by
    filter_upwards [w0, self_mem_nhdsWithin] with t ht h0
    have : t ^ j * w t ≠ 0 := mul_ne_zero (pow_ne_zero _ h0) ht
    rw [fu, gw, fn, denote_div.2 ⟨_, _, hu t, hw t, this, rfl⟩]; rfl
  have huw : Tendsto (fun t => u t / w t) (𝓝[≠] 0) (𝓝 (u 0 / w 0)) :=
    ((cu.tendsto 0).div (cw.tendsto 0) pw.ne').mono_left nhdsWithin_le_nhds
  have tpow : ∀ {q : ℕ}, 0 < q → Tendsto (fun t : ℝ => t ^ q) (𝓝[≠] 0) (𝓝 0) := by
    intro q hq
    have := ((continuous_pow q (M := ℝ)).tendsto 0).mono_left (nhdsWithin_le_nhds (s := {0}ᶜ))
    rwa [zero_pow hq.ne'] at this
  refine ⟨hfg, fun hij => ?_, fun hij => ?_⟩
  · have h1 := (tpow (q := i - j) (by omega)).mul huw
    rw [zero_mul] at h1
    refine h1.congr' ?_
    filter_upwards [hfg, w0, self_mem_nhdsWithin] with t ht h2 h0
    have h0 : t ≠ 0 := h0
    rw [ht, fu, gw, show i = (i - j) + j by omega, pow_add, show i - j + j - j = i - j by omega]
    field_simp
  · have h1 : Tendsto (fun t : ℝ => |t ^ (j - i)|) (𝓝[≠] 0) (𝓝[>] 0) := by
      refine tendsto_nhdsWithin_iff.2 ⟨by simpa using (tpow (q := j - i) (by omega)).abs, ?_⟩
      filter_upwards [self_mem_nhdsWithin] with t ht
      exact abs_pos.2 (pow_ne_zero _ ht)
    have h2 := (tendsto_inv_nhdsGT_zero.comp h1).atTop_mul_pos (abs_pos.2 (div_pos pu pw).ne') huw.abs
    refine h2.congr' ?_
    filter_upwards [hfg, w0, self_mem_nhdsWithin] with t ht h2 h0
    have h0 : t ≠ 0 := h0
    simp only [Function.comp_apply]
    rw [ht, fu, gw, ← abs_inv, ← abs_mul]
    congr 1
    obtain ⟨d, rfl⟩ : ∃ d, j = i + d := ⟨j - i, by omega⟩
    rw [Nat.add_sub_cancel_left, pow_add]
    field_simp

theorem TrigPoly.quotable {m : Mode} {x : Variable} {i s : ℕ} {e : Expr F} {n0 : SmartNum F} (hn0 : n0.Valid)
    (hz : n0.isZero = true) (he : Built m e) (h : TrigPoly x i s e) {env : Env} (hp : ∀ v, 0 < env v) :
    Quotable m env x (ofNum n0) 0 e := by
  have hpt0 : ∀ env, denote SmartNum.exactReal env (ofNum n0) = some 0 := fun env => by
    rw [denote_ofNum, exactReal_of_exact (hn0.zero_iff.1 hz) hn0]; simp
  have val : ∀ {e : Expr F} {i s : ℕ}, WF SmartNum.Valid e → TrigPoly x i s e → 0 < i →
      denote SmartNum.exactReal (env.set x 0) e = some 0 := by
    intro e i s he h hi
    obtain ⟨g, -, -, hg⟩ := h.value (ν := SmartNum.exactReal) (fun _ hn _ hq => exactReal_of_exact hq hn) he hp
    rw [hg 0, zero_pow hi.ne', zero_mul]
  have av : ∀ {e : Expr F} {i s : ℕ}, WF SmartNum.Valid e → TrigPoly x i s e → 0 < i →
      Avoids SmartNum.exactReal (AtPoint SmartNum.exactReal x (ofNum n0)) e Real.pi :=
    fun he h hi => ⟨env.set x 0, ⟨env, 0, hpt0 env, rfl⟩, 0, val he h hi, Real.pi_pos.ne⟩
  obtain ⟨g, -, -, hg⟩ := h.value (ν := SmartNum.exactReal) (fun _ hn _ hq => exactReal_of_exact hq hn) he.valid hp
  have pA : ∀ {Q : Expr F → Expr F → Prop}, PowAll Q e := by
    intro Q
    clear he hg
    induction h with
    | num => exact powAll_ofNum _
    | self | other => exact powAll_ofVar _
    | add _ _ i j => exact powAll_add.2 ⟨i, j⟩
    | mul _ _ i j => exact powAll_mul.2 ⟨i, j⟩
    | sin _ _ _ ih => exact powAll_sin.2 ih
    | cos _ _ _ ih => exact powAll_cos.2 ih
  have tA : ∀ (w : WF SmartNum.Valid e), TrigAll (fun a => denote SmartNum.exactReal (env.set x 0) a = some 0) e := by
    intro w
    clear he hg pA
    induction h with
    | num => exact trigAll_ofNum _
    | self | other => exact trigAll_ofVar _
    | add _ _ i j => have := WF.add_iff.1 w; exact trigAll_add.2 ⟨i this.1, j this.2⟩
    | mul _ _ i j => have := WF.mul_iff.1 w; exact trigAll_mul.2 ⟨i this.1, j this.2⟩
    | sin ha _ hi ih => have := WF.sin_iff.1 w; exact trigAll_sin.2 ⟨val this ha hi, ih this⟩
    | cos ha _ hi ih => have := WF.cos_iff.1 w; exact trigAll_cos.2 ⟨val this ha hi, ih this⟩
  have sA : ∀ (w : WF SmartNum.Valid e), SafeD SmartNum.exactReal (AtPoint SmartNum.exactReal x (ofNum n0)) e := by
    intro w
    clear he hg pA tA
    induction h with
    | num => exact safeD_ofNum _
    | self | other => exact safeD_ofVar _
    | add _ _ i j => have := WF.add_iff.1 w; exact safeD_add.2 ⟨i this.1, j this.2⟩
    | mul _ _ i j => have := WF.mul_iff.1 w; exact safeD_mul.2 ⟨i this.1, j this.2⟩
    | sin ha _ hi ih => have := WF.sin_iff.1 w; exact safeD_sin.2 ⟨av this ha hi, ih this⟩
    | cos ha _ hi ih => have := WF.cos_iff.1 w; exact safeD_cos.2 ⟨av this ha hi, ih this⟩
  exact ⟨he, ⟨_, hg 0⟩, sA he.valid, fun a b h => ((pA (Q := fun _ _ => False)) _ h a b rfl).elim, pA, fun _ a ha => by
    have := tA he.valid
    rcases ha with ha | ha
    · exact ⟨0, this _ ha a (.inl rfl), Real.sin_zero⟩
    · exact ⟨0, this _ ha a (.inr rfl), Real.sin_zero⟩⟩

/-- C71: the answers are true, for all positive values of the other variables. -/
theorem C71_true (m m' : Mode) (f g pt : Expr F) (x : Variable) (k : UInt64) (i j : ℕ) (hf : Built m f) (hg : Built m g)
    (hpt : Built m' pt) (hz : pt.isZero = true) (pf : SinPoly x i f) (pg : SinPoly x j g) (z : LimitExpression F)
    (h : LimitIs .strict (f.div g) x pt k z) (env : Env) (hp : ∀ v, 0 < env v) :
    z.Describes SmartNum.exactReal env (𝓝[≠] 0) (fn SmartNum.exactReal env x (f.div g)) := by
  obtain ⟨s, hs1, ts, us, vs⟩ := pf.level
  obtain ⟨t, ht1, tt, ut, vt⟩ := pg.level
  by_cases hsin : HasSin f ∨ HasSin g
  swap
  · have q1 : PosPoly x i f := by
      rcases (by omega : s = 0 ∨ s = 1) with h0 | h0
      · exact vs h0
      · exact (hsin (.inl (ts.hasSin (by omega)))).elim
    have q2 : PosPoly x j g := by
      rcases (by omega : t = 0 ∨ t = 1) with h0 | h0
      · exact vt h0
      · exact (hsin (.inr (tt.hasSin (by omega)))).elim
    exact C70_true m m' f g pt x k i j hf hg hpt hz q1 q2 z h env hp
  obtain ⟨u, cu, pu, hu⟩ := ts.value (ν := SmartNum.exactReal) (fun _ hn _ hq => exactReal_of_exact hq hn) hf.valid hp
  obtain ⟨w, cw, pw, hw⟩ := tt.value (ν := SmartNum.exactReal) (fun _ hn _ hq => exactReal_of_exact hq hn) hg.valid hp
  obtain ⟨hfg, q0, qI⟩ := order_quotient (f := f) (g := g) cu pu cw pw hu hw
  have uni : ∀ {o}, o ≠ .fuel → (∃ n, Expr.limit .strict x pt k n (f.div g) = o) → o = .ok z := by
    rintro o ho ⟨n, hn⟩
    obtain ⟨n', hn'⟩ := h
    rw [← hn, ← hn']
    exact limit_outcome_unique hpt.tree (.div _ _ hf.tree hg.tree) (by rw [hn]; exact ho) (by rw [hn']; simp)
  rcases sinPoly_answer (k := k) hf hg hpt hz pf pg hsin with hP | ⟨-, hE⟩ | ⟨-, h1, ⟨hij, hI⟩ | ⟨hij, hI⟩ | ⟨hij, c, hI, hv⟩⟩
  · cases uni (by simp) hP
  · cases uni (by simp) hE
  · cases uni (by simp) hI
    exact q0 hij
  · cases uni (by simp) hI
    exact qI hij
  · cases uni (by simp) hI
    subst hij
    obtain ⟨v, hv⟩ := hv env hp
    refine ⟨v, hv, ?_⟩
    obtain ⟨n0, rfl, hz0⟩ := isZero_num hpt.tree hz
    have hn0 := WF.num_iff.1 hpt.valid
    have hpt0 : denote SmartNum.exactReal env (ofNum n0) = some 0 := by
      rw [denote_ofNum, exactReal_of_exact (hn0.zero_iff.1 hz0) hn0]; simp
    obtain ⟨n, h⟩ := h
    obtain ⟨d, h1', h2, h3⟩ := limit_lift (.div _ _ hf.valid hg.valid) hpt.valid h
    obtain ⟨rl, fl⟩ := (ts.quotable hn0 hz0 hf hp).lift hpt.valid
    obtain ⟨rr, fr⟩ := (tt.quotable hn0 hz0 hg hp).lift hpt.valid
    have el : (ofNum n0 : Expr F).lift = ofNum n0.lift := by simp [Expr.lift]
    have hd0 := denote_lift hpt.valid.tree hpt0
    have hw0 := wf_lift hpt.valid
    have hzl := isZero_lift hpt.valid
    rw [el] at rl rr h1' hd0 hw0 hzl
    obtain ⟨r, hm, ht⟩ := TrigPoly.quotient (l := f.lift) (r := g.lift) (z := d) (i := i) (by omega) hs1 ht1
      (WF.num_iff.1 hw0) (hzl.trans hz0) hp hd0 rl rr (ts.lift hf.valid) (tt.lift hg.valid) h1'
    rw [fl, fr] at ht
    have := tells_of_means hm ht
    rw [h2] at this
    obtain ⟨v', hs, ht'⟩ := this
    rw [hs.1 v hv]
    refine ht'.congr' ?_
    filter_upwards [hfg] with t ht
    rw [ht]

/-! ### examples -/

/-- Non-vacuous: sin(3*x) / (2*x) answers Normal(3/2) in every build with order_try 1 and Err with order_try 0;
sin(x)*sin(x) / (x*x), whose limit is 1, fails with Err at order_try 1 and panics at order_try 2, in every build. -/
theorem C71_example :
    let x : Expr F := newVariable "x"
    let f := ((ofI64 3).mul x).sin
    let g := (ofI64 2).mul x
    SinPoly ⟨"x"⟩ 1 f ∧ HasSin f ∧ SinPoly ⟨"x"⟩ 1 g ∧ SinPoly ⟨"x"⟩ 2 (x.sin.mul x.sin) ∧ SinPoly ⟨"x"⟩ 2 (x.mul x) ∧
    (∃ n : SmartNum F, (∀ b, LimitIs b (f.div g) ⟨"x"⟩ zero 1 (.normal (ofNum n))) ∧ n.exact? = some (3 / 2)) ∧
    (∀ b, LimitErr b (f.div g) ⟨"x"⟩ zero 0) ∧
    (∀ b, LimitErr b ((x.sin.mul x.sin).div (x.mul x)) ⟨"x"⟩ zero 1) ∧
    ∀ b k, 2 ≤ k.toNat → LimitPanics b ((x.sin.mul x.sin).div (x.mul x)) ⟨"x"⟩ zero k := by
  intro x f g
  have px : SinPoly ⟨"x"⟩ 1 x := .self
  have p3 : SinPoly ⟨"x"⟩ 0 (ofI64 3 : Expr F) := .num _ 3 (by rfl) (by norm_num)
  have p2 : SinPoly ⟨"x"⟩ 0 (ofI64 2 : Expr F) := .num _ 2 (by rfl) (by norm_num)
  have ps : SinPoly ⟨"x"⟩ 1 x.sin := px.sin one_pos
  have bx : ∀ b, Built b x := fun b => .var _
  refine ⟨(p3.mul px).sin (by norm_num), ⟨_, .refl⟩, p2.mul px, ps.mul ps, px.mul px,
    ⟨⟨.rational ⟨1, 3, 2⟩, .nothing⟩, fun b => ⟨20, by cases b <;> krfl⟩, ?_⟩, fun b => ⟨20, by cases b <;> krfl⟩,
    fun b => ⟨20, by cases b <;> krfl⟩, fun b k hk => ?_⟩
  · simp [SmartNum.exact?, SmartNumVal.exact?, RationalNum.value]
  · have ex : ∀ {o : Out (DerivativeError F) (Expr F)}, (match o with | .ok _ => true | _ => false) = true → ∃ d, o = .ok d := by
      intro o h
      cases o with
      | ok d => exact ⟨d, rfl⟩
      | _ => cases h
    have h1 : ∃ d, nthDerivative .strict (x.sin.mul x.sin) ⟨"x"⟩ 2 = .ok d := ex (by krfl)
    have h2 : ∃ d, nthDerivative .strict (x.mul x) ⟨"x"⟩ 2 = .ok d := ex (by krfl)
    obtain ⟨d1, h1⟩ := h1
    obtain ⟨d2, h2⟩ := h2
    exact C71_aborts b b b _ _ zero d1 d2 ⟨"x"⟩ k 2 2 (.mul _ _ (.sin _ (bx b)) (.sin _ (bx b))) (.mul _ _ (bx b) (bx b))
      (.num _ (.ofI64 0)) rfl (ps.mul ps) (px.mul px) le_rfl le_rfl
      (.inl ⟨x, .child _ _ x.sin (by simp) .refl⟩) hk h1 h2

/-- C71: with a cosine the first L'Hôpital step already aborts: (1 + (-1)*cos(x)) / x, whose limit at 0 is 0, fails with
Err at order_try 0 and panics at every higher order, in every build and for every float implementation. -/
theorem C71_one_minus_cos (b : Mode) (k : UInt64) (env : Env) :
    let x : Expr F := newVariable "x"
    let e := ((ofI64 1).add ((ofI64 (-1)).mul x.cos)).div x
    LimitErr b e ⟨"x"⟩ zero 0 ∧ (1 ≤ k.toNat → LimitPanics b e ⟨"x"⟩ zero k) ∧
    Tendsto (fn SmartNum.exactReal env ⟨"x"⟩ e) (𝓝[≠] 0) (𝓝 0) := by
  intro x e
  refine ⟨⟨20, by cases b <;> krfl⟩, fun hk => ⟨20, ?_⟩, ?_⟩
  · obtain ⟨K, hK⟩ : ∃ K, k.toNat + 1 = K + 2 := ⟨k.toNat - 1, by omega⟩
    rw [limit_div, hK]
    cases b <;> krfl
  · have hx : ∀ t, denote SmartNum.exactReal (env.set ⟨"x"⟩ t) x = some t := fun t => by
      simp [x, newVariable, denote, Env.set]
    have he : ∀ t : ℝ, t ≠ 0 → fn SmartNum.exactReal env ⟨"x"⟩ e t = (1 + -1 * Real.cos t) / t := by
      intro t ht
      rw [fn, denote_div.2 ⟨1 + -1 * Real.cos t, t, denote_add.2 ⟨1, -1 * Real.cos t, by
        rw [denote_int]; simp [show (1 : Int64).toInt = 1 by decide], denote_mul.2 ⟨-1, Real.cos t, by
        rw [denote_int]; simp [show (-1 : Int64).toInt = -1 by decide], denote_cos.2 ⟨t, hx t, rfl⟩, rfl⟩, rfl⟩,
        hx t, ht, rfl⟩]
      rfl
    have h1 : HasDerivAt (fun t => 1 + -1 * Real.cos t) 0 0 := by
      have := ((Real.hasDerivAt_cos 0).const_mul (-1)).const_add 1
      simpa using this
    have h2 := h1.tendsto_slope
    refine h2.congr' ?_
    filter_upwards [self_mem_nhdsWithin] with t ht
    rw [he t ht, slope_def_field]
    simp

end SymRust
