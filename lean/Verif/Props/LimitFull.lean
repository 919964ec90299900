import Verif.Proofs.LimitNever
/-! # C51, C52: soundness of the whole search of `limit` -/

namespace SymRust
open Expr Filter Topology LimitExpression
variable {F : Type} [FloatOps F]

theorem Searchable.lift {m : Mode} {env : Env} {x : Variable} {pt e : Expr F} {p : ℝ} (hpt : WF SmartNum.Valid pt)
    (h : Searchable m env x pt p e) : Punctured env x pt.lift p e.lift ∧
      fn SmartNum.value? env x e.lift = fn SmartNum.exactReal env x e := by
  have w := h.built.valid
  obtain ⟨t, r, hr⟩ := h.defined.exists
  refine ⟨⟨wf_lift w, h.safe.lift (atPoint_lift hpt.tree) w.tree, h.ln.lift w.tree,
    h.defined.mono fun t ⟨r, hr⟩ => ⟨r, denote_lift w.tree hr⟩, h.pow.mono fun t ht => ht.lift w.tree, ?_⟩,
    fn_lift w hr env x⟩
  have key : ∀ a0 : Expr F, Subterm a0.sin e ∨ Subterm a0.cos e → Tree a0 → SmoothAt env x pt.lift p a0.lift := by
    intro a0 h1 t0
    obtain ⟨h2, w, hw, h3⟩ := h.trig a0 h1
    obtain ⟨g, k1, k2, k3⟩ := denote_smooth t0 hw h2 ⊤
    simp only [Env.set_same, Env.set_set] at k1 k2 k3
    exact ⟨g, k2.analyticAt, k1.mono fun t ht => denote_lift t0 ht, fun h0 => by
      rw [k3]; exact h3 (by rwa [isZero_lift hpt] at h0)⟩
  intro s hs a ha
  obtain ⟨s0, h1, rfl⟩ := subterm_mapNum hs e rfl
  rcases ha with ha | ha
  · obtain ⟨a0, rfl, rfl⟩ := unary_mapNum (op := genOpSin) ha.symm
    exact key a0 (.inl h1) (tree_sub (tree_sub w.tree h1) (.child _ _ a0 (by simp) .refl))
  · obtain ⟨a0, rfl, rfl⟩ := unary_mapNum (op := genOpCos) ha.symm
    exact key a0 (.inr h1) (tree_sub (tree_sub w.tree h1) (.child _ _ a0 (by simp) .refl))

section down
variable {m : Mode} {x : Variable} {pt : Expr (F × ℝ)} {k : UInt64}

theorem LimitIs.down (hp : Tree pt) {e : Expr (F × ℝ)} (he : Tree e) {z : LimitExpression (F × ℝ)}
    (h : LimitIs m e x pt k z) : LimitIs m (e.map Prod.fst) x (pt.map Prod.fst) k (z.map Prod.fst) := by
  obtain ⟨n, h⟩ := h
  exact ⟨n, by rw [limit_map fstHom m x hp k n he, h]; rfl⟩

theorem derivative_down {e d : Expr (F × ℝ)} (he : Tree e) (h : e.derivative m x = .ok d) :
    (e.map Prod.fst).derivative m x = .ok (d.map Prod.fst) ∧ Tree d := by
  refine ⟨?_, (der_of_derivative he h).wf (numClosed_true m) he⟩
  have := derivative_map fstHom m x he
  rw [h] at this
  exact this

theorem Stage.down (hp : Tree pt) {l r l' r' : Expr (F × ℝ)} (hl : Tree l) (hr : Tree r)
    (h : Stage m x pt k l r l' r') : Stage m x (pt.map Prod.fst) k (l.map Prod.fst) (r.map Prod.fst)
      (l'.map Prod.fst) (r'.map Prod.fst) ∧ Tree l' ∧ Tree r' := by
  induction h with
  | start => exact ⟨.start, hl, hr⟩
  | next _ h1 h2 h3 h4 h5 ih =>
    obtain ⟨i1, i2, i3⟩ := ih
    obtain ⟨k1, k2⟩ := derivative_down i2 h4
    obtain ⟨k3, k4⟩ := derivative_down i3 h5
    exact ⟨.next i1 (h1.down hp i2) (h2.down hp i3) (by rw [LimitExpression.div_map, h3]; rfl) k1 k3, k2, k4⟩

omit [FloatOps F] in
theorem one_map : (Expr.one : Expr (F × ℝ)).map Prod.fst = Expr.one := rfl

theorem AsksNow.down (hp : Tree pt) {e d : Expr (F × ℝ)} (he : Tree e) (h : AsksNow m x pt k e d) :
    AsksNow m x (pt.map Prod.fst) k (e.map Prod.fst) (d.map Prod.fst) ∧ Tree d := by
  have h1 : Tree (Expr.one : Expr (F × ℝ)) := .num _ trivial
  cases h with
  | addLeft l r => rw [map_add]; exact ⟨.addLeft _ _, (WF.add_iff.1 he).1⟩
  | addRight l r => rw [map_add]; exact ⟨.addRight _ _, (WF.add_iff.1 he).2⟩
  | addAgain l r a g1 g2 g3 =>
    obtain ⟨hl, hr⟩ := WF.add_iff.1 he
    simp only [map_add, map_div, one_map]
    exact ⟨.addAgain _ _ (a.map Prod.fst) (g1.down hp hl) (g2.down hp hr)
      (by have := LimitExpression.add_map Prod.fst a .infinity; rw [g3] at this; exact this),
      .div _ _ (.add _ _ (.div _ _ hl hr) h1) (.div _ _ h1 hr)⟩
  | mulLeft l r => rw [map_mul]; exact ⟨.mulLeft _ _, (WF.mul_iff.1 he).1⟩
  | mulRight l r => rw [map_mul]; exact ⟨.mulRight _ _, (WF.mul_iff.1 he).2⟩
  | mulAgainLeft l r g1 g2 =>
    obtain ⟨hl, hr⟩ := WF.mul_iff.1 he
    simp only [map_mul, map_div, one_map]
    exact ⟨.mulAgainLeft _ _ (g1.down hp hl) (g2.down hp hr), .div _ _ hr (.div _ _ h1 hl)⟩
  | mulAgainRight l r g1 g2 =>
    obtain ⟨hl, hr⟩ := WF.mul_iff.1 he
    simp only [map_mul, map_div, one_map]
    exact ⟨.mulAgainRight _ _ (g1.down hp hl) (g2.down hp hr), .div _ _ hl (.div _ _ h1 hr)⟩
  | dividend l r l' r' hs =>
    obtain ⟨hl, hr⟩ := WF.div_iff.1 he
    obtain ⟨i1, i2, i3⟩ := hs.down hp hl hr
    rw [map_div]; exact ⟨.dividend _ _ _ _ i1, i2⟩
  | divisor l r l' r' hs =>
    obtain ⟨hl, hr⟩ := WF.div_iff.1 he
    obtain ⟨i1, i2, i3⟩ := hs.down hp hl hr
    rw [map_div]; exact ⟨.divisor _ _ _ _ i1, i3⟩

theorem Asks.down (hp : Tree pt) {e d : Expr (F × ℝ)} (he : Tree e) (h : Asks m x pt k e d) :
    Asks m x (pt.map Prod.fst) k (e.map Prod.fst) (d.map Prod.fst) ∧ Tree d := by
  induction h with
  | refl e => exact ⟨.refl _, he⟩
  | step h1 _ ih =>
    obtain ⟨i1, i2⟩ := h1.down hp he
    obtain ⟨j1, j2⟩ := ih i2
    exact ⟨.step i1 j1, j2⟩

theorem SearchFine.lift (hp : Tree pt) {e : Expr (F × ℝ)} (he : Tree e) {Z : Expr F → Prop}
    (h : SearchFine m x (pt.map Prod.fst) k Z (e.map Prod.fst)) :
    SearchFine m x pt k (fun c => Z (c.map Prod.fst)) e := by
  constructor
  · intro l r ha c hc
    obtain ⟨i1, i2⟩ := ha.down hp he
    obtain ⟨hl, hr⟩ := WF.mul_iff.1 i2
    rw [map_mul] at i1
    refine h.mul _ _ i1 (c.map Prod.fst) ?_
    exact hc.imp (fun h => ⟨h.1.down hp hl, h.2.down hp hr⟩) (fun h => ⟨h.1.down hp hl, h.2.down hp hr⟩)
  · intro l r l' r' ha hs
    obtain ⟨i1, i2⟩ := ha.down hp he
    obtain ⟨hl, hr⟩ := WF.div_iff.1 i2
    obtain ⟨j1, j2, j3⟩ := hs.down hp hl hr
    rw [map_div] at i1
    obtain ⟨f1, f2⟩ := h.div _ _ _ _ i1 j1
    constructor
    · intro a c h1 h2 h3 h4
      refine f1 (a.map Prod.fst) (c.map Prod.fst) (h1.down hp j2) ?_ (h3.down hp j3) ?_
      · rintro h; cases a <;> simp_all [LimitExpression.map]
      · intro hn
        have := LimitExpression.div_map Prod.fst a (.normal c)
        rw [show (LimitExpression.normal c).map Prod.fst = .normal (c.map Prod.fst) from rfl, hn] at this
        cases hd : a.div (.normal c) with
        | none => exact h4 hd
        | some w => rw [hd] at this; cases this
    · intro c h1 h2 h3
      exact f2 (c.map Prod.fst) (h1.down hp j2) (by rw [isZero_map]; exact h2) (h3.down hp j3)

end down

/-! ## C51 -/

/-- C51: every answer of `limit` is true.  `e` and the point are built with the API, the point has the value `p`, `e`
has a value near `p` (not necessarily at it) and meets the restrictions of C30, C34 and C43 (`Searchable`), and the
search never multiplies Infinity by, or divides by, a Normal answer of value 0 (`SearchFine`).  Then Infinitesimal
means that the function tends to 0, Infinity that its absolute value tends to infinity, and Normal(c) that it tends to
the value of `c`. -/
theorem C51_sound (m m' : Mode) (e pt : Expr F) (hpt : Built m' pt) (x : Variable) (k : UInt64)
    (z : LimitExpression F) (h : LimitIs .strict e x pt k z) (env : Env) (p : ℝ)
    (hp : denote SmartNum.exactReal env pt = some p) (hsp : Safe SmartNum.exactReal Set.univ pt)
    (he : Searchable m env x pt p e) (hf : SearchFine .strict x pt k (fun c => StandsFor env c 0) e) :
    z.Tells env (𝓝[≠] p) (fn SmartNum.exactReal env x e) := by
  obtain ⟨n, h⟩ := h
  obtain ⟨d, h1, rfl, h2⟩ := limit_lift he.built.valid hpt.valid h
  obtain ⟨pe, fe⟩ := he.lift hpt.valid
  have wp := wf_lift hpt.valid
  rw [← map_lift hpt.valid, ← map_lift he.built.valid] at hf
  have hf' := hf.lift wp.tree pe.wf.tree
  have ht := (limit_truth (denote_lift hpt.valid.tree hp) wp
    (hsp.lift (E' := Set.univ) subset_rfl hpt.valid.tree) (fun c hc h0 => denote_down hc h0) n pe hf' h1).2
  rw [fe] at ht
  rcases ht with ⟨rfl, ht⟩ | ⟨r, ht, hm⟩
  · exact ht
  · exact tells_of_means hm ht


/-! ### establishing the hypotheses step by step -/

section
variable {m : Mode} {x : Variable} {pt : Expr F} {k : UInt64} {Z : Expr F → Prop}

theorem SearchFine.leaf {e : Expr F} (h : ∀ d, ¬ AsksNow m x pt k e d) (h1 : ∀ l r : Expr F, e ≠ l.mul r)
    (h2 : ∀ l r : Expr F, e ≠ l.div r) : SearchFine m x pt k Z e := by
  constructor
  · intro l r ha
    cases ha with
    | refl => exact absurd rfl (h1 l r)
    | step ha _ => exact absurd ha (h _)
  · intro l r _ _ ha
    cases ha with
    | refl => exact absurd rfl (h2 l r)
    | step ha _ => exact absurd ha (h _)

theorem SearchFine.ofNum (n : SmartNum F) : SearchFine m x pt k Z (ofNum n) :=
  .leaf (fun d h => by generalize hc : Expr.ofNum n = c at h; cases h <;> expr_inj at hc)
    (fun l r h => by expr_inj at h) (fun l r h => by expr_inj at h)
theorem SearchFine.ofVar (v : Variable) : SearchFine m x pt k Z (ofVar v) :=
  .leaf (fun d h => by generalize hc : Expr.ofVar v = c at h; cases h <;> expr_inj at hc)
    (fun l r h => by expr_inj at h) (fun l r h => by expr_inj at h)
theorem SearchFine.sin (a : Expr F) : SearchFine m x pt k Z a.sin :=
  .leaf (fun d h => by generalize hc : a.sin = c at h; cases h <;> expr_inj at hc)
    (fun l r h => by expr_inj at h) (fun l r h => by expr_inj at h)
theorem SearchFine.cos (a : Expr F) : SearchFine m x pt k Z a.cos :=
  .leaf (fun d h => by generalize hc : a.cos = c at h; cases h <;> expr_inj at hc)
    (fun l r h => by expr_inj at h) (fun l r h => by expr_inj at h)

/-- A sum: the operands, and the rewritten form if the sum of the answers is refused. -/
theorem SearchFine.add {l r : Expr F} (hl : SearchFine m x pt k Z l) (hr : SearchFine m x pt k Z r)
    (h : ∀ a, LimitIs m l x pt k a → LimitIs m r x pt k .infinity → a.add .infinity = none →
      SearchFine m x pt k Z (((l.div r).add one).div (one.div r))) : SearchFine m x pt k Z (l.add r) := by
  have now : ∀ d, AsksNow m x pt k (l.add r) d → SearchFine m x pt k Z d := by
    intro d hd
    generalize hc : l.add r = c at hd
    cases hd <;> expr_inj at hc
    all_goals obtain ⟨rfl, rfl⟩ := hc
    · exact hl
    · exact hr
    · exact h _ (by assumption) (by assumption) (by assumption)
  constructor
  · intro l' r' ha
    generalize hc : l.add r = c at ha
    cases ha with
    | refl => expr_inj at hc
    | step h1 h2 => subst hc; exact (now _ h1).mul _ _ h2
  · intro l' r' l'' r'' ha hs
    generalize hc : l.add r = c at ha
    cases ha with
    | refl => expr_inj at hc
    | step h1 h2 => subst hc; exact (now _ h1).div _ _ _ _ h2 hs

theorem SearchFine.mul' {l r : Expr F} (hl : SearchFine m x pt k Z l) (hr : SearchFine m x pt k Z r)
    (hm : MulFine m x pt k Z l r)
    (h1 : LimitIs m l x pt k .infinity → LimitIs m r x pt k .infinitesimal →
      SearchFine m x pt k Z (r.div (one.div l)))
    (h2 : LimitIs m l x pt k .infinitesimal → LimitIs m r x pt k .infinity →
      SearchFine m x pt k Z (l.div (one.div r))) : SearchFine m x pt k Z (l.mul r) := by
  have now : ∀ d, AsksNow m x pt k (l.mul r) d → SearchFine m x pt k Z d := by
    intro d hd
    generalize hc : l.mul r = c at hd
    cases hd <;> expr_inj at hc
    all_goals obtain ⟨rfl, rfl⟩ := hc
    · exact hl
    · exact hr
    · exact h1 (by assumption) (by assumption)
    · exact h2 (by assumption) (by assumption)
  constructor
  · intro l' r' ha
    generalize hc : l.mul r = c at ha
    cases ha with
    | refl => expr_inj at hc; obtain ⟨rfl, rfl⟩ := hc; exact hm
    | step h1 h2 => subst hc; exact (now _ h1).mul _ _ h2
  · intro l' r' l'' r'' ha hs
    generalize hc : l.mul r = c at ha
    cases ha with
    | refl => expr_inj at hc
    | step h1 h2 => subst hc; exact (now _ h1).div _ _ _ _ h2 hs

theorem Stage.first {l r l' r' : Expr F} (h : Stage m x pt k l r l' r') : (l' = l ∧ r' = r) ∨
    ∃ a b l1 r1, LimitIs m l x pt k a ∧ LimitIs m r x pt k b ∧ a.div b = none ∧ l.derivative m x = .ok l1 ∧
      r.derivative m x = .ok r1 ∧ Stage m x pt k l1 r1 l' r' := by
  induction h with
  | start => exact .inl ⟨rfl, rfl⟩
  | next hs h1 h2 h3 h4 h5 ih =>
    rcases ih with ⟨rfl, rfl⟩ | ⟨a, b, l1, r1, g1, g2, g3, g4, g5, g6⟩
    · exact .inr ⟨_, _, _, _, h1, h2, h3, h4, h5, .start⟩
    · exact .inr ⟨a, b, l1, r1, g1, g2, g3, g4, g5, .next g6 h1 h2 h3 h4 h5⟩

/-- A quotient: the operands, and the quotient of the derivatives if the quotient of the answers is refused. -/
theorem SearchFine.div' {l r : Expr F} (hl : SearchFine m x pt k Z l) (hr : SearchFine m x pt k Z r)
    (hm : DivFine m x pt k Z l r)
    (h : ∀ a b l1 r1, LimitIs m l x pt k a → LimitIs m r x pt k b → a.div b = none → l.derivative m x = .ok l1 →
      r.derivative m x = .ok r1 → SearchFine m x pt k Z (l1.div r1)) : SearchFine m x pt k Z (l.div r) := by
  have st : ∀ l' r', Stage m x pt k l r l' r' →
      DivFine m x pt k Z l' r' ∧ SearchFine m x pt k Z l' ∧ SearchFine m x pt k Z r' := by
    intro l' r' hs
    rcases hs.first with ⟨rfl, rfl⟩ | ⟨a, b, l1, r1, g1, g2, g3, g4, g5, g6⟩
    · exact ⟨hm, hl, hr⟩
    · have := h a b l1 r1 g1 g2 g3 g4 g5
      exact ⟨this.div _ _ _ _ (.refl _) g6,
        ⟨fun l r h1 => this.mul l r (.step (.dividend _ _ _ _ g6) h1),
          fun l r l' r' h1 h2 => this.div l r l' r' (.step (.dividend _ _ _ _ g6) h1) h2⟩,
        ⟨fun l r h1 => this.mul l r (.step (.divisor _ _ _ _ g6) h1),
          fun l r l' r' h1 h2 => this.div l r l' r' (.step (.divisor _ _ _ _ g6) h1) h2⟩⟩
  have now : ∀ d, AsksNow m x pt k (l.div r) d → SearchFine m x pt k Z d := by
    intro d hd
    generalize hc : l.div r = c at hd
    cases hd <;> expr_inj at hc
    all_goals obtain ⟨rfl, rfl⟩ := hc
    · exact (st _ _ (by assumption)).2.1
    · exact (st _ _ (by assumption)).2.2
  constructor
  · intro l' r' ha
    generalize hc : l.div r = c at ha
    cases ha with
    | refl => expr_inj at hc
    | step h1 h2 => subst hc; exact (now _ h1).mul _ _ h2
  · intro l' r' l'' r'' ha hs
    generalize hc : l.div r = c at ha
    cases ha with
    | refl => expr_inj at hc; obtain ⟨rfl, rfl⟩ := hc; exact (st _ _ hs).1
    | step h1 h2 => subst hc; exact (now _ h1).div _ _ _ _ h2 hs

/-- A product or quotient is fine if no answer is a Normal one. -/
theorem mulFine_of {l r : Expr F} {a b : LimitExpression F} (hp : Tree pt) (tl : Tree l) (tr : Tree r)
    (hl : LimitIs m l x pt k a) (hr : LimitIs m r x pt k b) (h : a = .infinity → ∀ c, b = .normal c → ¬ Z c)
    (h' : b = .infinity → ∀ c, a = .normal c → ¬ Z c) : MulFine m x pt k Z l r := by
  rintro c (⟨h1, h2⟩ | ⟨h1, h2⟩)
  · exact h (hl.unique hp tl h1) c (hr.unique hp tr h2)
  · exact h' (hr.unique hp tr h2) c (hl.unique hp tl h1)

theorem divFine_of {l r : Expr F} {a b : LimitExpression F} (hp : Tree pt) (tl : Tree l) (tr : Tree r)
    (hl : LimitIs m l x pt k a) (hr : LimitIs m r x pt k b)
    (h : a ≠ .infinity → ∀ c, b = .normal c → a.div b ≠ none → ¬ Z c)
    (h' : b = .infinitesimal → ∀ c, a = .normal c → c.isZero = false → ¬ Z c) : DivFine m x pt k Z l r := by
  constructor
  · intro a' c h1 h2 h3 h4
    obtain rfl := hl.unique hp tl h1
    obtain rfl := hr.unique hp tr h3
    exact h h2 c rfl h4
  · intro c h1 h2 h3
    exact h' (hr.unique hp tr h3) c (hl.unique hp tl h1) h2

end

/-! ### searchable expressions -/

section
variable {m : Mode} {env : Env} {x : Variable} {pt : Expr F} {p : ℝ}

omit [FloatOps F] in
theorem noLnIntoBase_iff {v e : Expr F} : NoLnIntoBase x v e ↔ PowAll (fun a _ => Occurs x a → NoLn v) e := by
  constructor
  · rintro h s hs a b rfl; exact h a b hs
  · intro h a b hs; exact h _ hs a b rfl

/-- The restriction of `Searchable.trig` on one argument. -/
def TrigFine (env : Env) (x : Variable) (pt : Expr F) (p : ℝ) (a : Expr F) : Prop :=
  PowOK SmartNum.exactReal (env.set x p) x a ∧
    ∃ w, denote SmartNum.exactReal (env.set x p) a = some w ∧ (pt.isZero = true → Real.sin w = 0)

omit [FloatOps F] in
theorem trigFine_iff {e : Expr F} : (∀ a : Expr F, Subterm a.sin e ∨ Subterm a.cos e → TrigFine env x pt p a) ↔
    TrigAll (TrigFine env x pt p) e := by
  constructor
  · rintro h s hs a (rfl | rfl)
    · exact h a (.inl hs)
    · exact h a (.inr hs)
  · rintro h a (hs | hs)
    · exact h _ hs a (.inl rfl)
    · exact h _ hs a (.inr rfl)

theorem Searchable.num (n : SmartNum F) (hn : SmartNum.Reachable m n) {r : ℝ} (hr : n.exactReal = some r) :
    Searchable m env x pt p (ofNum n) where
  built := .num _ hn
  defined := .of_forall fun _ => ⟨r, by rw [denote_ofNum]; exact hr⟩
  pow := .of_forall fun _ => powAll_ofNum _
  safe := safeD_ofNum _
  ln := noLnIntoBase_iff.2 (powAll_ofNum _)
  trig := trigFine_iff.2 (trigAll_ofNum _)

theorem Searchable.var (v : Variable) : Searchable m env x pt p (ofVar v) where
  built := .var _
  defined := .of_forall fun _ => ⟨_, denote_ofVar ..⟩
  pow := .of_forall fun _ => powAll_ofVar _
  safe := safeD_ofVar _
  ln := noLnIntoBase_iff.2 (powAll_ofVar _)
  trig := trigFine_iff.2 (trigAll_ofVar _)

theorem Searchable.add {l r : Expr F} (hl : Searchable m env x pt p l) (hr : Searchable m env x pt p r) :
    Searchable m env x pt p (l.add r) where
  built := .add _ _ hl.built hr.built
  defined := by
    filter_upwards [hl.defined, hr.defined] with t ⟨u, hu⟩ ⟨v, hv⟩
    exact ⟨_, denote_add.2 ⟨u, v, hu, hv, rfl⟩⟩
  pow := by filter_upwards [hl.pow, hr.pow] with t h1 h2 using powAll_add.2 ⟨h1, h2⟩
  safe := safeD_add.2 ⟨hl.safe, hr.safe⟩
  ln := noLnIntoBase_iff.2 (powAll_add.2 ⟨noLnIntoBase_iff.1 hl.ln, noLnIntoBase_iff.1 hr.ln⟩)
  trig := trigFine_iff.2 (trigAll_add.2 ⟨trigFine_iff.1 hl.trig, trigFine_iff.1 hr.trig⟩)

theorem Searchable.mul {l r : Expr F} (hl : Searchable m env x pt p l) (hr : Searchable m env x pt p r) :
    Searchable m env x pt p (l.mul r) where
  built := .mul _ _ hl.built hr.built
  defined := by
    filter_upwards [hl.defined, hr.defined] with t ⟨u, hu⟩ ⟨v, hv⟩
    exact ⟨_, denote_mul.2 ⟨u, v, hu, hv, rfl⟩⟩
  pow := by filter_upwards [hl.pow, hr.pow] with t h1 h2 using powAll_mul.2 ⟨h1, h2⟩
  safe := safeD_mul.2 ⟨hl.safe, hr.safe⟩
  ln := noLnIntoBase_iff.2 (powAll_mul.2 ⟨noLnIntoBase_iff.1 hl.ln, noLnIntoBase_iff.1 hr.ln⟩)
  trig := trigFine_iff.2 (trigAll_mul.2 ⟨trigFine_iff.1 hl.trig, trigFine_iff.1 hr.trig⟩)

/-- A quotient whose divisor is not 0 near the point. -/
theorem Searchable.div {l r : Expr F} (hl : Searchable m env x pt p l) (hr : Searchable m env x pt p r)
    (h0 : ∀ᶠ t in 𝓝[≠] p, fn SmartNum.exactReal env x r t ≠ 0) : Searchable m env x pt p (l.div r) where
  built := .div _ _ hl.built hr.built
  defined := by
    filter_upwards [hl.defined, hr.defined, h0] with t ⟨u, hu⟩ ⟨v, hv⟩ h
    rw [fn, hv] at h
    exact ⟨_, denote_div.2 ⟨u, v, hu, hv, h, rfl⟩⟩
  pow := by filter_upwards [hl.pow, hr.pow] with t h1 h2 using powAll_div.2 ⟨h1, h2⟩
  safe := safeD_div.2 ⟨hl.safe, hr.safe⟩
  ln := noLnIntoBase_iff.2 (powAll_div.2 ⟨noLnIntoBase_iff.1 hl.ln, noLnIntoBase_iff.1 hr.ln⟩)
  trig := trigFine_iff.2 (trigAll_div.2 ⟨trigFine_iff.1 hl.trig, trigFine_iff.1 hr.trig⟩)

/-- Every expression that C50 covers. -/
theorem Quotable.searchable {e : Expr F} (h : Quotable m env x pt p e)
    (ht : ∀ a : Expr F, Subterm a.sin e ∨ Subterm a.cos e → PowOK SmartNum.exactReal (env.set x p) x a ∧
      ∃ w, denote SmartNum.exactReal (env.set x p) a = some w) : Searchable m env x pt p e := by
  obtain ⟨r, hr⟩ := h.value
  refine ⟨h.built, ?_, ?_, h.safe, h.ln, ?_⟩
  · obtain ⟨g, h1, -, -⟩ := denote_smooth h.built.tree hr h.pow 1
    simp only [Env.set_same, Env.set_set] at h1
    exact (h1.filter_mono nhdsWithin_le_nhds).mono fun t ht => ⟨_, ht⟩
  · have := powOK_open h.built.tree hr h.pow
    simp only [Env.set_same, Env.set_set] at this
    exact this.filter_mono nhdsWithin_le_nhds
  · intro a ha
    obtain ⟨h1, w, hw⟩ := ht a ha
    refine ⟨h1, w, hw, fun h0 => ?_⟩
    obtain ⟨w', hw', h2⟩ := h.trig h0 a ha
    rw [hw] at hw'; cases hw'; exact h2

end

theorem not_standsFor_one (env : Env) : ¬ StandsFor env (one : Expr F) 0 := by
  intro h
  have := h.1 1 (by rw [one, denote_int]; simp [show (1 : Int64).toInt = 1 by decide])
  exact one_ne_zero this

/-- Non-vacuous: `x + sin(x)/x * (1/x)` at the literal 0 meets the hypotheses of C51 with `order_try = 1`.  The search
goes through the rewriting of a sum, a product with the answer Normal(1) and a L'Hôpital step, and answers Infinity. -/
theorem C51_example (env : Env) :
    let x : Expr F := newVariable "x"
    let e := x.add ((x.sin.div x).mul (one.div x))
    Searchable .debug env ⟨"x"⟩ zero 0 e ∧ SearchFine .strict ⟨"x"⟩ zero 1 (fun c => StandsFor env c 0) e ∧
    LimitIs .strict e ⟨"x"⟩ zero 1 .infinity ∧
    Tendsto (fun t => |fn SmartNum.exactReal env ⟨"x"⟩ e t|) (𝓝[≠] 0) atTop := by
  intro x e
  have hx : x = ofVar ⟨"x"⟩ := rfl
  have h0 : ∀ env : Env, denote SmartNum.exactReal env (zero : Expr F) = some 0 := by
    intro env; rw [zero, denote_int]; simp [show (0 : Int64).toInt = 0 by decide]
  have h1 : (SmartNum.ofI64 1 : SmartNum F).exactReal = some 1 := by
    have := denote_int (F := F) env 1
    rw [ofI64, denote_ofNum] at this
    rw [this]; simp [show (1 : Int64).toInt = 1 by decide]
  have hset : ∀ env : Env, ∀ t : ℝ, denote SmartNum.exactReal (env.set ⟨"x"⟩ t) x = some t := by
    intro env t; simp [hx]
  have bz : Built .debug (zero : Expr F) := .num _ (.ofI64 0)
  have hav : Avoids SmartNum.exactReal (AtPoint SmartNum.exactReal ⟨"x"⟩ (zero : Expr F)) x Real.pi :=
    ⟨env.set ⟨"x"⟩ 0, ⟨env, 0, h0 env, rfl⟩, 0, hset env 0, Real.pi_pos.ne⟩
  have sx : Searchable .debug env ⟨"x"⟩ zero 0 x := .var _
  have s1 : Searchable .debug env ⟨"x"⟩ zero 0 (one : Expr F) := .num _ (.ofI64 1) h1
  have ss : Searchable .debug env ⟨"x"⟩ zero 0 x.sin :=
    { built := .sin _ (.var _)
      defined := .of_forall fun t => ⟨_, denote_sin.2 ⟨t, hset env t, rfl⟩⟩
      pow := .of_forall fun t => powAll_sin.2 (powAll_ofVar _)
      safe := safeD_sin.2 ⟨hav, safeD_ofVar _⟩
      ln := noLnIntoBase_iff.2 (powAll_sin.2 (powAll_ofVar _))
      trig := trigFine_iff.2 (trigAll_sin.2 ⟨⟨powAll_ofVar _, 0, hset env 0, by simp⟩, trigAll_ofVar _⟩) }
  have hne : ∀ᶠ t in 𝓝[≠] (0 : ℝ), fn SmartNum.exactReal env ⟨"x"⟩ x t ≠ 0 := by
    rw [fn_var]; exact self_mem_nhdsWithin
  have se : Searchable .debug env ⟨"x"⟩ zero 0 e := sx.add ((ss.div sx hne).mul (s1.div sx hne))
  have tp : Tree (zero : Expr F) := bz.tree
  have tx : Tree x := .var _
  have t1 : Tree (one : Expr F) := .num _ trivial
  have ts : Tree x.sin := .sin _ tx
  have tr : Tree ((x.sin.div x).mul (one.div x)) := .mul _ _ (.div _ _ ts tx) (.div _ _ t1 tx)
  have lx : LimitIs .strict x ⟨"x"⟩ zero 1 .infinitesimal := ⟨1, by krfl⟩
  have l1 : LimitIs .strict (one : Expr F) ⟨"x"⟩ zero 1 (.normal one) := ⟨1, by krfl⟩
  have ls : LimitIs .strict x.sin ⟨"x"⟩ zero 1 .infinitesimal := ⟨1, by krfl⟩
  have lq : LimitIs .strict (x.sin.div x) ⟨"x"⟩ zero 1 (.normal one) := ⟨3, by krfl⟩
  have lc : LimitIs .strict x.cos ⟨"x"⟩ zero 1 (.normal one) := ⟨1, by krfl⟩
  have li : LimitIs .strict (one.div x) ⟨"x"⟩ zero 1 .infinity := ⟨2, by krfl⟩
  have lr : LimitIs .strict ((x.sin.div x).mul (one.div x)) ⟨"x"⟩ zero 1 .infinity := ⟨4, by krfl⟩
  have le : LimitIs .strict e ⟨"x"⟩ zero 1 .infinity := ⟨9, by krfl⟩
  have n1 := not_standsFor_one (F := F) env
  have f1 : SearchFine .strict ⟨"x"⟩ zero 1 (fun c => StandsFor env c 0) (one : Expr F) := .ofNum _
  have fx : SearchFine .strict ⟨"x"⟩ zero 1 (fun c => StandsFor env c 0) x := .ofVar _
  have fq : SearchFine .strict ⟨"x"⟩ zero 1 (fun c => StandsFor env c 0) (x.sin.div x) := by
    refine .div' (.sin _) fx (divFine_of tp ts tx ls lx (by rintro - c ⟨⟩) (by rintro - c ⟨⟩)) ?_
    intro a b l1' r1' _ _ _ hl hr
    have hl' : x.sin.derivative .strict ⟨"x"⟩ = .ok x.cos := by krfl
    have hr' : x.derivative .strict ⟨"x"⟩ = .ok one := by krfl
    rw [hl'] at hl; cases hl
    rw [hr'] at hr; cases hr
    refine .div' (.cos _) f1 (divFine_of tp (.cos _ tx) t1 lc l1 ?_ (by rintro ⟨⟩)) ?_
    · rintro - c ⟨⟩ -; exact n1
    · intro a b _ _ ha hb hab
      obtain rfl := lc.unique tp (.cos _ tx) ha
      obtain rfl := l1.unique tp t1 hb
      cases hab
  have fi : SearchFine .strict ⟨"x"⟩ zero 1 (fun c => StandsFor env c 0) (one.div x) := by
    refine .div' f1 fx (divFine_of tp t1 tx l1 lx (by rintro - c ⟨⟩) (by rintro - c ⟨⟩ -; exact n1)) ?_
    intro a b _ _ ha hb hab
    obtain rfl := l1.unique tp t1 ha
    obtain rfl := lx.unique tp tx hb
    have : (LimitExpression.normal one : LimitExpression F).div .infinitesimal = some .infinity := by krfl
    rw [this] at hab; cases hab
  have fr : SearchFine .strict ⟨"x"⟩ zero 1 (fun c => StandsFor env c 0) ((x.sin.div x).mul (one.div x)) := by
    refine .mul' fq fi (mulFine_of tp (.div _ _ ts tx) (.div _ _ t1 tx) lq li (by rintro ⟨⟩) ?_) ?_ ?_
    · rintro - c ⟨⟩; exact n1
    · intro h _; cases lq.unique tp (.div _ _ ts tx) h
    · intro h _; cases lq.unique tp (.div _ _ ts tx) h
  have fe : SearchFine .strict ⟨"x"⟩ zero 1 (fun c => StandsFor env c 0) e := by
    refine .add fx fr fun a _ _ _ => ?_
    have lxr : LimitIs .strict (x.div ((x.sin.div x).mul (one.div x))) ⟨"x"⟩ zero 1 .infinitesimal := ⟨5, by krfl⟩
    have ld : LimitIs .strict ((x.div ((x.sin.div x).mul (one.div x))).add one) ⟨"x"⟩ zero 1 (.normal one) :=
      ⟨6, by krfl⟩
    have lir : LimitIs .strict (one.div ((x.sin.div x).mul (one.div x))) ⟨"x"⟩ zero 1 .infinitesimal := ⟨5, by krfl⟩
    refine .div' (.add (.div' fx fr (divFine_of tp tx tr lx lr (by rintro - c ⟨⟩) (by rintro ⟨⟩)) ?_) f1 ?_)
      (.div' f1 fr (divFine_of tp t1 tr l1 lr (by rintro - c ⟨⟩) (by rintro ⟨⟩)) ?_)
      (divFine_of tp (.add _ _ (.div _ _ tx tr) t1) (.div _ _ t1 tr) ld lir (by rintro - c ⟨⟩) ?_) ?_
    · intro a b _ _ ha hb hab
      obtain rfl := lx.unique tp tx ha
      obtain rfl := lr.unique tp tr hb
      cases hab
    · intro a _ h; cases l1.unique tp t1 h
    · intro a b _ _ ha hb hab
      obtain rfl := l1.unique tp t1 ha
      obtain rfl := lr.unique tp tr hb
      cases hab
    · rintro - c ⟨⟩ -; exact n1
    · intro a b _ _ ha hb hab
      obtain rfl := ld.unique tp (.add _ _ (.div _ _ tx tr) t1) ha
      obtain rfl := lir.unique tp (.div _ _ t1 tr) hb
      have : (LimitExpression.normal one : LimitExpression F).div .infinitesimal = some .infinity := by krfl
      rw [this] at hab; cases hab
  exact ⟨se, fe, le, C51_sound .debug .debug e zero bz ⟨"x"⟩ 1 _ le env 0 (h0 env) (safe_ofNum _) se fe⟩

/-- The condition on products is needed: `(1/x) * 0` at 0 is answered Infinity, the function is constantly 0. -/
theorem C51_mul_condition_needed (m : Mode) (k : UInt64) (env : Env) :
    let e : Expr F := (one.div (newVariable "x")).mul zero
    LimitIs m e ⟨"x"⟩ zero k .infinity ∧ Tendsto (fn SmartNum.exactReal env ⟨"x"⟩ e) (𝓝[≠] 0) (𝓝 0) := by
  intro e
  refine ⟨⟨3, by cases m <;> krfl⟩, tendsto_const_nhds.congr' ?_⟩
  filter_upwards [self_mem_nhdsWithin] with t ht
  have h1 : denote SmartNum.exactReal (env.set ⟨"x"⟩ t) (one : Expr F) = some 1 := by
    rw [one, denote_int]; simp [show (1 : Int64).toInt = 1 by decide]
  have h0 : denote SmartNum.exactReal (env.set ⟨"x"⟩ t) (zero : Expr F) = some 0 := by
    rw [zero, denote_int]; simp [show (0 : Int64).toInt = 0 by decide]
  have hx : denote SmartNum.exactReal (env.set ⟨"x"⟩ t) (newVariable "x" : Expr F) = some t := by
    simp [newVariable, Env.set, denote]
  rw [fn, denote_mul.2 ⟨_, _, denote_div.2 ⟨1, t, h1, hx, ht, rfl⟩, h0, rfl⟩]
  simp

/-- The condition on quotients is needed: `(y + (-1)*y) / x` at `x = 0` is answered Infinity, the function is
constantly 0. -/
theorem C51_div_condition_needed (m : Mode) (k : UInt64) (env : Env) :
    let y : Expr F := newVariable "y"
    let e : Expr F := (y.add ((ofI64 (-1)).mul y)).div (newVariable "x")
    LimitIs m e ⟨"x"⟩ zero k .infinity ∧ Tendsto (fn SmartNum.exactReal env ⟨"x"⟩ e) (𝓝[≠] 0) (𝓝 0) := by
  intro y e
  refine ⟨⟨4, by cases m <;> krfl⟩, tendsto_const_nhds.congr' ?_⟩
  filter_upwards [self_mem_nhdsWithin] with t ht
  have hy : denote SmartNum.exactReal (env.set ⟨"x"⟩ t) y = some (env ⟨"y"⟩) := by
    simp [y, newVariable, Env.set, denote]
  have h1 : denote SmartNum.exactReal (env.set ⟨"x"⟩ t) (ofI64 (-1) : Expr F) = some (-1) := by
    rw [denote_int]; simp [show (-1 : Int64).toInt = -1 by decide]
  have hx : denote SmartNum.exactReal (env.set ⟨"x"⟩ t) (newVariable "x" : Expr F) = some t := by
    simp [newVariable, Env.set, denote]
  rw [fn, denote_div.2 ⟨_, t, denote_add.2 ⟨_, _, hy, denote_mul.2 ⟨_, _, h1, hy, rfl⟩, rfl⟩, hx, ht, rfl⟩]
  simp

/-! ## C52 -/

section
theorem lift_add (l r : Expr F) : (l.add r).lift = l.lift.add r.lift := by simp [Expr.lift]
theorem lift_mul (l r : Expr F) : (l.mul r).lift = l.lift.mul r.lift := by simp [Expr.lift]
theorem lift_div (l r : Expr F) : (l.div r).lift = l.lift.div r.lift := by simp [Expr.lift]

theorem LimitIs.liftInfinity {m : Mode} {x : Variable} {pt e : Expr F} {k : UInt64} (h : LimitIs m e x pt k .infinity)
    (he : WF SmartNum.Valid e) (hp : WF SmartNum.Valid pt) : LimitIs m e.lift x pt.lift k .infinity := by
  obtain ⟨n, h⟩ := h
  obtain ⟨d, h1, h2, -⟩ := limit_lift he hp h
  cases d <;> cases h2
  exact ⟨n, h1⟩
theorem LimitIs.liftInfinitesimal {m : Mode} {x : Variable} {pt e : Expr F} {k : UInt64}
    (h : LimitIs m e x pt k .infinitesimal) (he : WF SmartNum.Valid e) (hp : WF SmartNum.Valid pt) :
    LimitIs m e.lift x pt.lift k .infinitesimal := by
  obtain ⟨n, h⟩ := h
  obtain ⟨d, h1, h2, -⟩ := limit_lift he hp h
  cases d <;> cases h2
  exact ⟨n, h1⟩
end

section
variable (m m' : Mode) (l r pt : Expr F) (hpt : Built m' pt) (x : Variable) (k : UInt64)
    (env : Env) (p : ℝ) (hp : denote SmartNum.exactReal env pt = some p) (hsp : Safe SmartNum.exactReal Set.univ pt)
include hpt hp hsp

/-- C52: Infinity / Infinity gets no answer. -/
theorem C52_infinity_over_infinity (he : Searchable m env x pt p (l.div r))
    (hf : SearchFine .strict x pt k (fun c => StandsFor env c 0) (l.div r))
    (hl : LimitIs .strict l x pt k .infinity) (hr : LimitIs .strict r x pt k .infinity) (z : LimitExpression F) :
    ¬ LimitIs .strict (l.div r) x pt k z := by
  rintro ⟨n, h⟩
  obtain ⟨d, h1, -, -⟩ := limit_lift he.built.valid hpt.valid h
  obtain ⟨vl, vr⟩ := WF.div_iff.1 he.built.valid
  rw [lift_div] at h1
  obtain ⟨pe, -⟩ := he.lift hpt.valid
  rw [lift_div] at pe
  have wp := wf_lift hpt.valid
  rw [← map_lift hpt.valid, ← map_lift he.built.valid] at hf
  have hf' := hf.lift wp.tree (wf_lift he.built.valid).tree
  rw [lift_div] at hf'
  exact no_infinity_div_infinity (denote_lift hpt.valid.tree hp) wp
    (hsp.lift (E' := Set.univ) subset_rfl hpt.valid.tree) (fun c hc h0 => denote_down hc h0) pe hf'
    (hl.liftInfinity vl hpt.valid) (hr.liftInfinity vr hpt.valid) n d h1

/-- C52: Infinity + Infinity gets no answer. -/
theorem C52_infinity_plus_infinity (he : Searchable m env x pt p (l.add r))
    (hf : SearchFine .strict x pt k (fun c => StandsFor env c 0) (l.add r))
    (hl : LimitIs .strict l x pt k .infinity) (hr : LimitIs .strict r x pt k .infinity) (z : LimitExpression F) :
    ¬ LimitIs .strict (l.add r) x pt k z := by
  rintro ⟨n, h⟩
  obtain ⟨d, h1, -, -⟩ := limit_lift he.built.valid hpt.valid h
  obtain ⟨vl, vr⟩ := WF.add_iff.1 he.built.valid
  rw [lift_add] at h1
  obtain ⟨pe, -⟩ := he.lift hpt.valid
  rw [lift_add] at pe
  have wp := wf_lift hpt.valid
  rw [← map_lift hpt.valid, ← map_lift he.built.valid] at hf
  have hf' := hf.lift wp.tree (wf_lift he.built.valid).tree
  rw [lift_add] at hf'
  exact no_infinity_add_infinity (denote_lift hpt.valid.tree hp) wp
    (hsp.lift (E' := Set.univ) subset_rfl hpt.valid.tree) (fun c hc h0 => denote_down hc h0) pe hf'
    (hl.liftInfinity vl hpt.valid) (hr.liftInfinity vr hpt.valid) n d h1

/-- C52: Infinity * Infinitesimal, in either order, gets no answer. -/
theorem C52_infinity_times_infinitesimal (he : Searchable m env x pt p (l.mul r))
    (hf : SearchFine .strict x pt k (fun c => StandsFor env c 0) (l.mul r))
    (h : (LimitIs .strict l x pt k .infinity ∧ LimitIs .strict r x pt k .infinitesimal) ∨
      (LimitIs .strict l x pt k .infinitesimal ∧ LimitIs .strict r x pt k .infinity)) (z : LimitExpression F) :
    ¬ LimitIs .strict (l.mul r) x pt k z := by
  rintro ⟨n, hz⟩
  obtain ⟨d, h1, -, -⟩ := limit_lift he.built.valid hpt.valid hz
  obtain ⟨vl, vr⟩ := WF.mul_iff.1 he.built.valid
  rw [lift_mul] at h1
  obtain ⟨pe, -⟩ := he.lift hpt.valid
  rw [lift_mul] at pe
  have wp := wf_lift hpt.valid
  rw [← map_lift hpt.valid, ← map_lift he.built.valid] at hf
  have hf' := hf.lift wp.tree (wf_lift he.built.valid).tree
  rw [lift_mul] at hf'
  refine no_infinity_mul_zero (denote_lift hpt.valid.tree hp) wp
    (hsp.lift (E' := Set.univ) subset_rfl hpt.valid.tree) (fun c hc h0 => denote_down hc h0) pe hf' ?_ n d h1
  rcases h with ⟨g1, g2⟩ | ⟨g1, g2⟩
  · exact .inl ⟨g1.liftInfinity vl hpt.valid, g2.liftInfinitesimal vr hpt.valid⟩
  · exact .inr ⟨g1.liftInfinitesimal vl hpt.valid, g2.liftInfinity vr hpt.valid⟩

end

/-- C52: Infinitesimal + Infinity, which `+` on limits refuses, is answered all the same: the rewritten sum is
resolved to Infinity.  In every mode, for every pair of expressions. -/
theorem C52_infinitesimal_plus_infinity (m : Mode) (l r pt : Expr F) (ht : Tree pt) (tl : Tree l) (tr : Tree r)
    (x : Variable) (k : UInt64) (hl : LimitIs m l x pt k .infinitesimal) (hr : LimitIs m r x pt k .infinity) :
    LimitIs m (l.add r) x pt k .infinity := by
  obtain ⟨n1, h1⟩ := hl
  obtain ⟨n2, h2⟩ := hr
  have g1 : ∀ n, max n1 n2 ≤ n → limit m x pt k n l = .ok .infinitesimal := fun n hn => by
    rw [limit_fuel ht tl (by rw [h1]; simp) (le_trans (le_max_left _ _) hn), h1]
  have g2 : ∀ n, max n1 n2 ≤ n → limit m x pt k n r = .ok .infinity := fun n hn => by
    rw [limit_fuel ht tr (by rw [h2]; simp) (le_trans (le_max_right _ _) hn), h2]
  generalize max n1 n2 = N at g1 g2
  have i1 : limit m x pt k (N + 1) (l.div r) = .ok .infinitesimal := by
    rw [limit_div]; simp only [divLoop]; rw [g1 N le_rfl, g2 N le_rfl]; rfl
  have i2 : limit m x pt k (N + 2) ((l.div r).add one) = .ok (.normal one) := by
    rw [limit_add]; simp only [addBody]; rw [i1, one, ofI64, limit_ofNum]
    cases m <;> krfl
  have i3 : limit m x pt k (N + 2) (one.div r) = .ok .infinitesimal := by
    rw [limit_div]; simp only [divLoop]; rw [g2 (N + 1) (by omega), one, ofI64, limit_ofNum]; rfl
  refine ⟨N + 4, ?_⟩
  rw [limit_add]; simp only [addBody]
  rw [g1 (N + 3) (by omega), g2 (N + 3) (by omega)]
  simp only [LOut.ok_bind, LimitExpression.add]
  rw [limit_div]; simp only [divLoop]
  rw [i2, i3]
  cases m <;> krfl

theorem limit_neg_none {m : Mode} {x : Variable} {pt : Expr F} {k : UInt64} (a : Expr F) (z : LimitExpression F) :
    ¬ LimitIs m a.neg x pt k z := by
  rintro ⟨n, h⟩
  cases n with
  | zero => cases h
  | succ n => rw [limit_neg] at h; cases h

theorem SearchFine.neg {m : Mode} {x : Variable} {pt : Expr F} {k : UInt64} {Z : Expr F → Prop} (a : Expr F) :
    SearchFine m x pt k Z a.neg :=
  .leaf (fun d h => by generalize hc : a.neg = c at h; cases h <;> expr_inj at hc)
    (fun l r h => by expr_inj at h) (fun l r h => by expr_inj at h)

/-- A quotient with a negated dividend: `limit` gives up at once. -/
theorem SearchFine.negDiv {m : Mode} {x : Variable} {pt : Expr F} {k : UInt64} {Z : Expr F → Prop} (a : Expr F)
    {b : Expr F} (hb : SearchFine m x pt k Z b) : SearchFine m x pt k Z (a.neg.div b) :=
  .div' (.neg _) hb ⟨fun _ _ h => absurd h (limit_neg_none _ _), fun _ h => absurd h (limit_neg_none _ _)⟩
    fun _ _ _ _ h => absurd h (limit_neg_none _ _)

theorem limit_negDiv_none {m : Mode} {x : Variable} {pt : Expr F} {k : UInt64} (a b : Expr F) (z : LimitExpression F) :
    ¬ LimitIs m (a.neg.div b) x pt k z := by
  rintro ⟨n, h⟩
  cases n with
  | zero => cases h
  | succ n =>
    rw [limit_div, LOut.bind_eq_ok] at h
    obtain ⟨w, h, -⟩ := h
    simp only [divLoop, LOut.bind_eq_ok] at h
    obtain ⟨A, hA, -⟩ := h
    exact limit_neg_none a A ⟨n, hA⟩

/-- Non-vacuous: at the literal 0, `(1/x)/(1/x)`, `1/x + 1/x` and `(1/x)*x` meet the hypotheses of C52 for every
`order_try`.  In the code, `1/x + 1/x` fails with `Err` for `order_try = 1` and panics for `order_try = 2`. -/
theorem C52_example (env : Env) (k : UInt64) :
    let x : Expr F := newVariable "x"
    let i : Expr F := one.div x
    LimitIs .strict i ⟨"x"⟩ zero k .infinity ∧ LimitIs .strict x ⟨"x"⟩ zero k .infinitesimal ∧
    (Searchable .debug env ⟨"x"⟩ zero 0 (i.div i) ∧
      SearchFine .strict ⟨"x"⟩ zero k (fun c => StandsFor env c 0) (i.div i)) ∧
    (Searchable .debug env ⟨"x"⟩ zero 0 (i.add i) ∧
      SearchFine .strict ⟨"x"⟩ zero k (fun c => StandsFor env c 0) (i.add i)) ∧
    (Searchable .debug env ⟨"x"⟩ zero 0 (i.mul x) ∧
      SearchFine .strict ⟨"x"⟩ zero k (fun c => StandsFor env c 0) (i.mul x)) ∧
    limit .debug ⟨"x"⟩ zero 1 9 (i.add i) = .err ∧ limit .debug ⟨"x"⟩ zero 2 9 (i.add i) = .panic := by
  intro x i
  have hx : x = ofVar ⟨"x"⟩ := rfl
  have h1 : (SmartNum.ofI64 1 : SmartNum F).exactReal = some 1 := by
    have := denote_int (F := F) env 1
    rw [ofI64, denote_ofNum] at this
    rw [this]; simp [show (1 : Int64).toInt = 1 by decide]
  have hset : ∀ env : Env, ∀ t : ℝ, denote SmartNum.exactReal (env.set ⟨"x"⟩ t) x = some t := by
    intro env t; simp [hx]
  have sx : Searchable .debug env ⟨"x"⟩ zero 0 x := .var _
  have s1 : Searchable .debug env ⟨"x"⟩ zero 0 (one : Expr F) := .num _ (.ofI64 1) h1
  have hne : ∀ᶠ t in 𝓝[≠] (0 : ℝ), fn SmartNum.exactReal env ⟨"x"⟩ x t ≠ 0 := by
    rw [fn_var]; exact self_mem_nhdsWithin
  have si : Searchable .debug env ⟨"x"⟩ zero 0 i := s1.div sx hne
  have hni : ∀ᶠ t in 𝓝[≠] (0 : ℝ), fn SmartNum.exactReal env ⟨"x"⟩ i t ≠ 0 := by
    filter_upwards [self_mem_nhdsWithin] with t ht
    have h1' : denote SmartNum.exactReal (env.set ⟨"x"⟩ t) (one : Expr F) = some 1 := by
      rw [one, denote_int]; simp [show (1 : Int64).toInt = 1 by decide]
    rw [fn, denote_div.2 ⟨1, t, h1', hset env t, ht, rfl⟩]
    exact one_div_ne_zero ht
  have tp : Tree (zero : Expr F) := .num _ trivial
  have tx : Tree x := .var _
  have t1 : Tree (one : Expr F) := .num _ trivial
  have ti : Tree i := .div _ _ t1 tx
  have lx : LimitIs .strict x ⟨"x"⟩ zero k .infinitesimal := ⟨1, by krfl⟩
  have l1 : LimitIs .strict (one : Expr F) ⟨"x"⟩ zero k (.normal one) := ⟨1, by krfl⟩
  have li : LimitIs .strict i ⟨"x"⟩ zero k .infinity := ⟨2, by krfl⟩
  have n1 := not_standsFor_one (F := F) env
  have f1 : SearchFine .strict ⟨"x"⟩ zero k (fun c => StandsFor env c 0) (one : Expr F) := .ofNum _
  have fx : SearchFine .strict ⟨"x"⟩ zero k (fun c => StandsFor env c 0) x := .ofVar _
  have fi : SearchFine .strict ⟨"x"⟩ zero k (fun c => StandsFor env c 0) i := by
    refine .div' f1 fx (divFine_of tp t1 tx l1 lx (by rintro - c ⟨⟩) (by rintro - c ⟨⟩ -; exact n1)) ?_
    intro a b _ _ ha hb hab
    obtain rfl := l1.unique tp t1 ha
    obtain rfl := lx.unique tp tx hb
    have : (LimitExpression.normal one : LimitExpression F).div .infinitesimal = some .infinity := by krfl
    rw [this] at hab; cases hab
  have fxx : SearchFine .strict ⟨"x"⟩ zero k (fun c => StandsFor env c 0) (x.mul x) := by
    refine .mul' fx fx (mulFine_of tp tx tx lx lx (by rintro ⟨⟩) (by rintro ⟨⟩)) ?_ ?_
    · intro h _; cases lx.unique tp tx h
    · intro _ h; cases lx.unique tp tx h
  have lxx : LimitIs .strict (x.mul x) ⟨"x"⟩ zero k .infinitesimal := ⟨2, by krfl⟩
  have txx : Tree (x.mul x) := .mul _ _ tx tx
  have fxxxx : SearchFine .strict ⟨"x"⟩ zero k (fun c => StandsFor env c 0) ((x.mul x).mul (x.mul x)) := by
    refine .mul' fxx fxx (mulFine_of tp txx txx lxx lxx (by rintro ⟨⟩) (by rintro ⟨⟩)) ?_ ?_
    · intro h _; cases lxx.unique tp txx h
    · intro _ h; cases lxx.unique tp txx h
  let i1 : Expr F := (ofI64 (-1)).div (x.mul x)
  have hi1 : i.derivative .strict ⟨"x"⟩ = .ok i1 := by krfl
  have nm1 : ¬ StandsFor env (ofI64 (-1) : Expr F) 0 := by
    intro h
    have := h.1 (-1) (by rw [denote_int]; simp [show (-1 : Int64).toInt = -1 by decide])
    norm_num at this
  have lm1 : LimitIs .strict (ofI64 (-1) : Expr F) ⟨"x"⟩ zero k (.normal (ofI64 (-1))) := ⟨1, by krfl⟩
  have tm1 : Tree (ofI64 (-1) : Expr F) := .num _ trivial
  have fi1 : SearchFine .strict ⟨"x"⟩ zero k (fun c => StandsFor env c 0) i1 := by
    refine .div' (.ofNum _) fxx (divFine_of tp tm1 txx lm1 lxx (by rintro - c ⟨⟩) (by rintro - c ⟨⟩ -; exact nm1)) ?_
    intro a b _ _ ha hb hab
    obtain rfl := lm1.unique tp tm1 ha
    obtain rfl := lxx.unique tp txx hb
    have : (LimitExpression.normal (ofI64 (-1)) : LimitExpression F).div .infinitesimal = some .infinity := by krfl
    rw [this] at hab; cases hab
  have li1 : LimitIs .strict i1 ⟨"x"⟩ zero k .infinity := ⟨3, by krfl⟩
  have ti1 : Tree i1 := .div _ _ tm1 txx
  have hi2 : ∃ a : Expr F, i1.derivative .strict ⟨"x"⟩ = .ok (a.neg.div ((x.mul x).mul (x.mul x))) := ⟨(ofI64 (-1)).mul (x.add x), by krfl⟩
  obtain ⟨a2, hi2⟩ := hi2
  have fii : SearchFine .strict ⟨"x"⟩ zero k (fun c => StandsFor env c 0) (i.div i) := by
    refine .div' fi fi (divFine_of tp ti ti li li (by intro h; cases h rfl) (by rintro ⟨⟩)) ?_
    intro a b _ _ _ _ _ hl hr
    rw [hi1] at hl hr; cases hl; cases hr
    refine .div' fi1 fi1 (divFine_of tp ti1 ti1 li1 li1 (by intro h; cases h rfl) (by rintro ⟨⟩)) ?_
    intro a b _ _ _ _ _ hl hr
    rw [hi2] at hl hr; cases hl; cases hr
    exact .div' (.negDiv _ fxxxx) (.negDiv _ fxxxx)
      ⟨fun _ _ h => absurd h (limit_negDiv_none _ _ _), fun _ h => absurd h (limit_negDiv_none _ _ _)⟩
      fun _ _ _ _ h => absurd h (limit_negDiv_none _ _ _)
  have foi : SearchFine .strict ⟨"x"⟩ zero k (fun c => StandsFor env c 0) (one.div i) := by
    refine .div' f1 fi (divFine_of tp t1 ti l1 li (by rintro - c ⟨⟩) (by rintro ⟨⟩)) ?_
    intro a b _ _ ha hb hab
    obtain rfl := l1.unique tp t1 ha
    obtain rfl := li.unique tp ti hb
    cases hab
  have loi : LimitIs .strict (one.div i) ⟨"x"⟩ zero k .infinitesimal := ⟨3, by krfl⟩
  have toi : Tree (one.div i) := .div _ _ t1 ti
  have nii : ∀ z, ¬ LimitIs .strict (i.div i) ⟨"x"⟩ zero k z :=
    C52_infinity_over_infinity .debug .debug i i zero (.num _ (.ofI64 0)) ⟨"x"⟩ k env 0
      (by rw [zero, denote_int]; simp [show (0 : Int64).toInt = 0 by decide]) (safe_ofNum _) (si.div si hni) fii li li
  have nadd : ∀ z, ¬ LimitIs .strict ((i.div i).add one) ⟨"x"⟩ zero k z := by
    rintro z ⟨n, h⟩
    cases n with
    | zero => cases h
    | succ n =>
      rw [limit_add, LOut.bind_eq_ok] at h
      obtain ⟨w, h, -⟩ := h
      simp only [addBody, LOut.bind_eq_ok] at h
      obtain ⟨B, -, A, hA, -⟩ := h
      exact nii A ⟨n, hA⟩
  refine ⟨li, lx, ⟨si.div si hni, fii⟩, ⟨si.add si, ?_⟩, ⟨si.mul sx, ?_⟩, by krfl, by krfl⟩
  · refine .add fi fi fun a _ _ _ => ?_
    exact .div' (.add fii f1 fun a h => absurd h (nii a)) foi
      ⟨fun _ _ h => absurd h (nadd _), fun _ h => absurd h (nadd _)⟩ fun _ _ _ _ h => absurd h (nadd _)
  · refine .mul' fi fx (mulFine_of tp ti tx li lx (by rintro - c ⟨⟩) (by rintro ⟨⟩)) ?_ ?_
    · intro _ _
      refine .div' fx foi (divFine_of tp tx toi lx loi (by rintro - c ⟨⟩) (by rintro - c ⟨⟩)) ?_
      intro a b _ _ _ _ _ hl hr
      have hl' : x.derivative .strict ⟨"x"⟩ = .ok one := by krfl
      have hr' : (one.div i).derivative .strict ⟨"x"⟩ = .ok (i1.neg.div (i.mul i)) := by krfl
      rw [hl'] at hl; cases hl
      rw [hr'] at hr; cases hr
      have fmii : SearchFine .strict ⟨"x"⟩ zero k (fun c => StandsFor env c 0) (i.mul i) := by
        refine .mul' fi fi (mulFine_of tp ti ti li li (by rintro - c ⟨⟩) (by rintro - c ⟨⟩)) ?_ ?_
        · intro _ h; cases li.unique tp ti h
        · intro h _; cases li.unique tp ti h
      exact .div' f1 (.negDiv _ fmii)
        ⟨fun _ _ _ _ h => absurd h (limit_negDiv_none _ _ _), fun _ _ _ h => absurd h (limit_negDiv_none _ _ _)⟩
        fun _ _ _ _ _ h => absurd h (limit_negDiv_none _ _ _)
    · intro h _; cases li.unique tp ti h

end SymRust
