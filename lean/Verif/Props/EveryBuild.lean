import Verif.Proofs.LimitStep
import Verif.Props.SinPoly
/-! # C70, C71: quotients in every build -/

namespace SymRust
variable {F : Type} [FloatOps F]
open Expr

/-- C70: the same in debug builds while schoolbook fractions stay below 2^63: for expressions made of numbers, variables,
sums and products, at any point, if putting the point into the derivatives of order 0, …, order_try + 1 stays below that
bound, then the limit of the quotient has one answer, the same in all builds, or is Err in all builds.  It never panics. -/
theorem C70_debug (m m' : Mode) (f g pt : Expr F) (x : Variable) (k : UInt64) (hf : Built m f) (hg : Built m g)
    (hpt : Built m' pt) (rf : RingForm f) (rg : RingForm g) (hs : ∀ n ≤ k.toNat + 1, StepSmall f g pt x n) :
    (∃ z, ∀ b, LimitIs b (f.div g) x pt k z) ∨ ∀ b, LimitErr b (f.div g) x pt k := by
  have nth : ∀ {e : Expr F}, Tree e → RingForm e → ∀ j d, nthDerivative .strict e x j = .ok d → Tree d ∧ RingForm d := by
    intro e te re j
    induction j with
    | zero => intro d h; cases h; exact ⟨te, re⟩
    | succ j ih =>
      intro d h
      obtain ⟨d', h1, h2⟩ := Out.bind_eq_ok.1 h
      obtain ⟨t, r⟩ := ih d' h1
      have hd := der_of_derivative t h2
      exact ⟨hd.wf (numClosed_true _) t, r.der hd⟩
  have np : ¬ LimitPanics .strict (f.div g) x pt k :=
    divLimit_small hpt.valid hf.valid hg.valid
      (fun j d _ h => h.elim (fun h => (nth hf.tree rf j d h).2.quotientFree) fun h => (nth hg.tree rg j d h).2.quotientFree)
      (fun j hj => hs j (by omega)) (.inl (hs _ le_rfl))
  have te : Tree (f.div g) := .div _ _ hf.tree hg.tree
  obtain ⟨n, hn⟩ : End.Ends .strict x pt k (f.div g) := End.ends hpt.tree (.div _ _ hf.valid hg.valid)
  cases h : limit .strict x pt k n (f.div g) with
  | ok z => exact .inl ⟨z, limitIs_all te hpt.tree ⟨n, h⟩⟩
  | err => exact .inr (limitErr_all te hpt.tree ⟨n, h⟩)
  | panic => exact (np ⟨n, h⟩).elim
  | fuel => exact (hn h).elim

/-- C70: for the quotients of C70_answer nothing else can happen: if the bound holds for the derivatives of order
0, …, min i j, then in every build the limit is Err for order_try < min i j and otherwise Infinitesimal, Infinity or Normal
as the lowest powers say. -/
theorem C70_every_build (m m' : Mode) (f g pt : Expr F) (x : Variable) (k : UInt64) (i j : ℕ) (hf : Built m f) (hg : Built m g)
    (hpt : Built m' pt) (hz : pt.isZero = true) (pf : PosPoly x i f) (pg : PosPoly x j g)
    (hs : ∀ n ≤ min i j, StepSmall f g pt x n) :
    (k.toNat < min i j → ∀ b, LimitErr b (f.div g) x pt k) ∧
    (min i j ≤ k.toNat → (j < i → ∀ b, LimitIs b (f.div g) x pt k .infinitesimal) ∧
      (i < j → ∀ b, LimitIs b (f.div g) x pt k .infinity) ∧
      (i = j → ∃ c, ∀ b, LimitIs b (f.div g) x pt k (.normal c))) := by
  have te : Tree (f.div g) := .div _ _ hf.tree hg.tree
  have hq : ∀ n d, n ≤ min i j → nthDerivative .strict f x n = .ok d ∨ nthDerivative .strict g x n = .ok d → QuotientFree d := by
    intro n d hn h
    rcases h with h | h
    · exact (pf.nth hf.valid (by omega) h).2.ringForm.quotientFree
    · exact (pg.nth hg.valid (by omega) h).2.ringForm.quotientFree
  constructor
  · intro hk
    have np : ¬ LimitPanics .strict (f.div g) x pt k := divLimit_small hpt.valid hf.valid hg.valid
      (fun n d hn => hq n d (by omega)) (fun n hn => hs n (by omega)) (.inl (hs _ (by omega)))
    rcases C70_answer m m' f g pt x k i j hf hg hpt hz pf pg with h | ⟨-, h⟩ | ⟨h, -⟩
    · exact (np h).elim
    · exact limitErr_all te hpt.tree h
    · omega
  · intro hk
    obtain ⟨k', hk'⟩ : ∃ k' : UInt64, k'.toNat = min i j :=
      ⟨UInt64.ofNat (min i j), UInt64.toNat_ofNat_of_lt' (lt_of_le_of_lt hk k.toNat_lt)⟩
    have np : ¬ LimitPanics .strict (f.div g) x pt k' := by
      refine divLimit_small hpt.valid hf.valid hg.valid
        (fun n d hn => hq n d (by omega)) (fun n hn => hs n (by omega)) (.inr ?_)
      intro n l r a b hl hr ha hb
      rw [hk'] at hl hr
      obtain ⟨vl, pl⟩ := pf.nth hf.valid (by omega) hl
      obtain ⟨vr, pr⟩ := pg.nth hg.valid (by omega) hr
      rcases pl.limit (k := k') vl hz n with h | h | ⟨hi, h⟩ | ⟨hi, c, h, vc, pc⟩ <;> rw [ha] at h <;> try cases h
      all_goals
        rcases pr.limit (k := k') vr hz n with h | h | ⟨hj, h⟩ | ⟨hj, d, h, vd, pd⟩ <;> rw [hb] at h <;> try cases h
      · omega
      · simp [LimitExpression.div, pd.not_zero vd]
      · simp [LimitExpression.div, pc.not_zero vc]
      · simp [LimitExpression.div]
    have up : ∀ {z}, LimitIs .strict (f.div g) x pt k' z → ∀ b, LimitIs b (f.div g) x pt k z := fun h b =>
      limitIs_order te hpt.tree (limitIs_all te hpt.tree h b) (by omega)
    rcases C70_answer m m' f g pt x k' i j hf hg hpt hz pf pg with h | ⟨h, -⟩ | ⟨-, h⟩
    · exact (np h).elim
    · omega
    · rcases h with ⟨hc, h⟩ | ⟨hc, h⟩ | ⟨hc, c, h⟩
      · exact ⟨fun _ => up h, fun _ => by omega, fun _ => by omega⟩
      · exact ⟨fun _ => by omega, fun _ => up h, fun _ => by omega⟩
      · exact ⟨fun _ => by omega, fun _ => by omega, fun _ => ⟨c, up h⟩⟩

omit [FloatOps F] in
theorem TrigPoly.quotientFree {x : Variable} {i s : ℕ} {e : Expr F} (h : TrigPoly x i s e) : QuotientFree e := by
  induction h with
  | num n => exact .num n
  | self => exact .var _
  | other v => exact .var v
  | add _ _ i j => exact .add i j
  | mul _ _ i j => exact .mul i j
  | sin => exact .sin _
  | cos => exact .cos _

/-- C71: what the limit does, in every build, if the bound holds for the derivatives of order 0, 1, 2 (as far as they are
needed): an answer as the orders say if min i j is at most 1 and at most order_try; Err if order_try < min i j and
order_try ≤ 1; and panic if order_try and both orders are at least 2. -/
theorem C71_every_build (m m' : Mode) (f g pt : Expr F) (x : Variable) (k : UInt64) (i j : ℕ) (hf : Built m f) (hg : Built m g)
    (hpt : Built m' pt) (hz : pt.isZero = true) (pf : SinPoly x i f) (pg : SinPoly x j g) (hsin : HasSin f ∨ HasSin g)
    (hs : ∀ n ≤ min 2 (min i j), StepSmall f g pt x n) :
    (min i j ≤ k.toNat → min i j ≤ 1 → (j < i → ∀ b, LimitIs b (f.div g) x pt k .infinitesimal) ∧
      (i < j → ∀ b, LimitIs b (f.div g) x pt k .infinity) ∧
      (i = j → ∃ c, ∀ b, LimitIs b (f.div g) x pt k (.normal c))) ∧
    (k.toNat < min i j → k.toNat ≤ 1 → ∀ b, LimitErr b (f.div g) x pt k) ∧
    (2 ≤ min i j → 2 ≤ k.toNat → ∀ b, LimitPanics b (f.div g) x pt k) := by
  have te : Tree (f.div g) := .div _ _ hf.tree hg.tree
  have nth : ∀ {e : Expr F} {i : ℕ}, WF SmartNum.Valid e → SinPoly x i e → ∀ n d, n ≤ i → n ≤ 1 →
      nthDerivative .strict e x n = .ok d → WF SmartNum.Valid d ∧ ∃ s, TrigPoly x (i - n) s d := by
    intro e i he pe n d hn hn1 h
    obtain ⟨s, hs, ht⟩ := pe.trig
    rcases (by omega : n = 0 ∨ n = 1) with rfl | rfl
    · cases h; exact ⟨he, s, ht⟩
    · obtain ⟨d', h1, h2⟩ := Out.bind_eq_ok.1 h
      cases h1
      have hd := der_of_derivative he.tree h2
      obtain ⟨t, h3, -⟩ := ht.low hn hs he hd
      exact ⟨hd.wf (numClosed_valid _) he, t, h3⟩
  have hq : ∀ n d, n ≤ min i j → n ≤ 1 → nthDerivative .strict f x n = .ok d ∨ nthDerivative .strict g x n = .ok d →
      QuotientFree d := by
    intro n d hn hn1 h
    rcases h with h | h
    · obtain ⟨-, s, h⟩ := nth hf.valid pf n d (by omega) hn1 h; exact h.quotientFree
    · obtain ⟨-, s, h⟩ := nth hg.valid pg n d (by omega) hn1 h; exact h.quotientFree
  refine ⟨fun hk h1 => ?_, fun hk h1 => ?_, fun hk h2 b => ?_⟩
  · obtain ⟨k', hk'⟩ : ∃ k' : UInt64, k'.toNat = min i j :=
      ⟨UInt64.ofNat (min i j), UInt64.toNat_ofNat_of_lt' (lt_of_le_of_lt hk k.toNat_lt)⟩
    have np : ¬ LimitPanics .strict (f.div g) x pt k' := by
      refine divLimit_small hpt.valid hf.valid hg.valid
        (fun n d hn => hq n d (by omega) (by omega)) (fun n hn => hs n (by omega)) (.inr ?_)
      intro n l r a b hl hr ha hb
      rw [hk'] at hl hr
      obtain ⟨n0, rfl, h0⟩ := isZero_num hpt.tree hz
      have hv0 := WF.num_iff.1 hpt.valid
      obtain ⟨vl, s, pl⟩ := nth hf.valid pf _ _ (by omega) h1 hl
      obtain ⟨vr, t, pr⟩ := nth hg.valid pg _ _ (by omega) h1 hr
      rcases pl.limit (k := k') h0 hv0 vl n with h | h | ⟨hi, h⟩ | ⟨hi, c, h, vc, pc⟩ <;> rw [ha] at h <;> try cases h
      all_goals
        rcases pr.limit (k := k') h0 hv0 vr n with h | h | ⟨hj, h⟩ | ⟨hj, d, h, vd, pd⟩ <;> rw [hb] at h <;> try cases h
      · omega
      · simp [LimitExpression.div, pd.not_zero vd]
      · simp [LimitExpression.div, pc.not_zero vc]
      · simp [LimitExpression.div]
    have up : ∀ {z}, LimitIs .strict (f.div g) x pt k' z → ∀ b, LimitIs b (f.div g) x pt k z := fun h b =>
      limitIs_order te hpt.tree (limitIs_all te hpt.tree h b) (by omega)
    rcases C71_answer m m' f g pt x k' i j hf hg hpt hz pf pg hsin with h | ⟨h, -⟩ | ⟨-, -, h⟩
    · exact (np h).elim
    · omega
    · rcases h with ⟨hc, h⟩ | ⟨hc, h⟩ | ⟨hc, c, h⟩
      · exact ⟨fun _ => up h, fun _ => by omega, fun _ => by omega⟩
      · exact ⟨fun _ => by omega, fun _ => up h, fun _ => by omega⟩
      · exact ⟨fun _ => by omega, fun _ => by omega, fun _ => ⟨c, up h⟩⟩
  · have np : ¬ LimitPanics .strict (f.div g) x pt k := divLimit_small hpt.valid hf.valid hg.valid
      (fun n d hn => hq n d (by omega) (by omega)) (fun n hn => hs n (by omega)) (.inl (hs _ (by omega)))
    rcases C71_answer m m' f g pt x k i j hf hg hpt hz pf pg hsin with h | ⟨-, h⟩ | ⟨h, -⟩
    · exact (np h).elim
    · exact limitErr_all te hpt.tree h
    · omega
  · have sm : ∀ n ≤ 2, Small (f.rawDerN x n) ∧ Small (g.rawDerN x n) := by
      intro n hn
      have h := hs n (by omega)
      unfold StepSmall at h
      have := small_div_iff (h.of_replace (.div _ _ (tree_rawDerN hf.tree x n) (tree_rawDerN hg.tree x n)) x)
      exact this
    obtain ⟨f2, hf2, -⟩ := nthDerivative_small hf.valid x 2 fun n hn => (sm n hn).1
    obtain ⟨g2, hg2, -⟩ := nthDerivative_small hg.valid x 2 fun n hn => (sm n hn).2
    exact C71_aborts b m m' f g pt f2 g2 x k i j hf hg hpt hz pf pg (by omega) (by omega) hsin h2 hf2 hg2

/-! ### examples -/

/-- Non-vacuous: 3*x*x + y*x*x*x over x*(2*x) meets the bounds up to order 2, and sin(x)*sin(x) over x*x and sin(3*x) over
2*x do. -/
theorem C70_bounds_example :
    let x : Expr F := newVariable "x"
    let y : Expr F := newVariable "y"
    let f := (((ofI64 3).mul x).mul x).add (((y.mul x).mul x).mul x)
    let g := x.mul ((ofI64 2).mul x)
    (∀ n ≤ min 2 2, StepSmall f g zero ⟨"x"⟩ n) ∧
    (∀ n ≤ min 2 (min 2 2), StepSmall (x.sin.mul x.sin) (x.mul x) zero ⟨"x"⟩ n) ∧
    (∀ n ≤ min 2 (min 1 1), StepSmall ((ofI64 3).mul x).sin ((ofI64 2).mul x) zero ⟨"x"⟩ n) ∧
    (∃ c, ∀ b, LimitIs b (f.div g) ⟨"x"⟩ zero 7 (.normal c)) ∧
    ∀ b, LimitErr b (f.div g) ⟨"x"⟩ zero 1 := by
  intro x y f g
  have h1 : ∀ n ≤ min 2 2, StepSmall f g zero ⟨"x"⟩ n := by
    intro n hn
    refine small_of_check ?_
    rcases (by omega : n = 0 ∨ n = 1 ∨ n = 2) with rfl | rfl | rfl <;> krfl
  obtain ⟨b1, b2, p1, p2, -⟩ := C70_example (F := F)
  have key := fun k => C70_every_build .debug .debug f g zero ⟨"x"⟩ k 2 2 b1 b2 (.num _ (.ofI64 0)) rfl p1 p2 h1
  refine ⟨h1, ?_, ?_, ((key 7).2 (by decide)).2.2 rfl, (key 1).1 (by decide)⟩
  · intro n hn
    refine small_of_check ?_
    rcases (by omega : n = 0 ∨ n = 1 ∨ n = 2) with rfl | rfl | rfl <;> krfl
  · intro n hn
    refine small_of_check ?_
    rcases (by omega : n = 0 ∨ n = 1) with rfl | rfl <;> krfl

end SymRust
