import Verif.Props.EncloseLHopital
import Verif.Props.LimitAlgebra
import Verif.Proofs.Poly
/-! # Rounding errors through the whole limit search: property C76 -/

namespace SymRust
variable {F : Type} [FloatOps F] {R : Rounding F}
open Expr Rounding Filter Topology

section
variable {f g : ℝ → ℝ} {l : Filter ℝ} {w : ℝ}

theorem inf_add (hf : Tendsto (fun t => |f t|) l atTop) (hg : Tendsto g l (𝓝 w)) :
    Tendsto (fun t => |f t + g t|) l atTop := by
  refine tendsto_atTop_mono (f := fun t => |f t| + -|g t|) (fun t => ?_) (hf.atTop_add hg.abs.neg)
  have := abs_sub_abs_le_abs_sub (f t) (-g t)
  rw [abs_neg, sub_neg_eq_add] at this
  linarith

theorem inf_mul (hf : Tendsto (fun t => |f t|) l atTop) (hg : Tendsto g l (𝓝 w)) (hw : w ≠ 0) :
    Tendsto (fun t => |f t * g t|) l atTop := by
  simp only [abs_mul]
  exact hf.atTop_mul_pos (abs_pos.2 hw) hg.abs

theorem inf_div (hf : Tendsto (fun t => |f t|) l atTop) (hg : Tendsto g l (𝓝 w)) (h0 : ∀ᶠ t in l, g t ≠ 0) :
    Tendsto (fun t => |f t / g t|) l atTop := by
  simp only [div_eq_mul_inv, abs_mul, abs_inv]
  by_cases hw : w = 0
  · subst hw
    have : Tendsto (fun t => |g t|⁻¹) l atTop := by
      refine tendsto_inv_nhdsGT_zero.comp (tendsto_nhdsWithin_iff.2 ⟨by simpa using hg.abs, ?_⟩)
      filter_upwards [h0] with t ht using abs_pos.2 ht
    exact hf.atTop_mul_atTop₀ this
  · exact hf.atTop_mul_pos (inv_pos.2 (abs_pos.2 hw)) (hg.abs.inv₀ (abs_pos.2 hw).ne')

theorem pole_tendsto (hf : Tendsto f l (𝓝 w)) (hw : w ≠ 0) (hg : Tendsto g l (𝓝 0)) (h0 : ∀ᶠ t in l, g t ≠ 0) :
    Tendsto (fun t => |f t / g t|) l atTop := by
  simp only [div_eq_mul_inv, abs_mul, abs_inv]
  have : Tendsto (fun t => |g t|⁻¹) l atTop := by
    refine tendsto_inv_nhdsGT_zero.comp (tendsto_nhdsWithin_iff.2 ⟨by simpa using hg.abs, ?_⟩)
    filter_upwards [h0] with t ht using abs_pos.2 ht
  exact hf.abs.pos_mul_atTop (abs_pos.2 hw) this

theorem div_inf (hf : Tendsto f l (𝓝 w)) (hg : Tendsto (fun t => |g t|) l atTop) :
    Tendsto (fun t => f t / g t) l (𝓝 0) := by
  rw [tendsto_zero_iff_abs_tendsto_zero]
  have : (abs ∘ fun t => f t / g t) = fun t => |f t| / |g t| := by funext t; simp [abs_div]
  rw [this]
  exact hf.abs.div_atTop hg

theorem abs_ev (h : f =ᶠ[l] g) : (fun t => |f t|) =ᶠ[l] fun t => |g t| := h.mono fun t ht => by simp only [ht]

end

namespace Rounding

theorem Tracks.built {s : Setting F} {m : Mode} {e : Expr F} {o : Fate} (h : R.Tracks s m e o) : Built m e := by
  induction h with
  | value e S h _ => exact h.built
  | lhopital l r i S hl hr _ _ => exact .div _ _ hl.built hr.built
  | add a b _ _ _ _ _ _ i j => exact .add _ _ i j
  | mul a b _ _ _ _ _ _ i j => exact .mul _ _ i j
  | div a b _ _ _ _ _ _ i j => exact .div _ _ i j
  | overInfinite a b _ _ _ _ _ i j => exact .div _ _ i j
  | pole a b _ _ _ _ _ _ i j => exact .div _ _ i j
  | infiniteOver a b _ _ _ i j => exact .div _ _ i j
  | infiniteAdd a b _ _ _ i j => exact .add _ _ i j
  | addInfinite a b _ _ _ i j => exact .add _ _ i j
  | infiniteMul a b _ _ _ _ i j => exact .mul _ _ i j
  | mulInfinite a b _ _ _ _ i j => exact .mul _ _ i j
  | infiniteMulInfinite a b _ _ i j => exact .mul _ _ i j

/-- The function whose limit is sought. -/
noncomputable def Fun (R : Rounding F) (s : Setting F) (e : Expr F) : ℝ → ℝ := fn R.real? s.env s.x e

/-- The strong form of the claim. -/
def Holds (R : Rounding F) (s : Setting F) (e : Expr F) : Fate → Prop
  | .within S => ∀ z, LimitIs .strict e s.x s.pt s.k z → ∃ w ∈ S, Tendsto (Fun R s e) (𝓝[≠] s.p) (𝓝 w) ∧
      MeansC R s.V S z ∧ (z = .infinitesimal → w = 0)
  | .infinite => ∀ z, LimitIs .strict e s.x s.pt s.k z → Tendsto (fun t => |Fun R s e t|) (𝓝[≠] s.p) atTop ∧ z = .infinity

section
variable {s : Setting F} {a b : Expr F}

theorem fn_add (h : DefinedNear R s (a.add b)) : DefinedNear R s a ∧ DefinedNear R s b ∧
    Fun R s (a.add b) =ᶠ[𝓝[≠] s.p] fun t => Fun R s a t + Fun R s b t := by
  refine ⟨h.mono ?_, h.mono ?_, h.mono ?_⟩
  all_goals
    rintro t ⟨r, hr⟩
    obtain ⟨u, v, hu, hv, e⟩ := denote_add.1 hr
  · exact ⟨u, hu⟩
  · exact ⟨v, hv⟩
  · simp [Fun, fn, hr, hu, hv, e]

theorem fn_mul (h : DefinedNear R s (a.mul b)) : DefinedNear R s a ∧ DefinedNear R s b ∧
    Fun R s (a.mul b) =ᶠ[𝓝[≠] s.p] fun t => Fun R s a t * Fun R s b t := by
  refine ⟨h.mono ?_, h.mono ?_, h.mono ?_⟩
  all_goals
    rintro t ⟨r, hr⟩
    obtain ⟨u, v, hu, hv, e⟩ := denote_mul.1 hr
  · exact ⟨u, hu⟩
  · exact ⟨v, hv⟩
  · simp [Fun, fn, hr, hu, hv, e]

theorem fn_div (h : DefinedNear R s (a.div b)) : DefinedNear R s a ∧ DefinedNear R s b ∧
    (∀ᶠ t in 𝓝[≠] s.p, Fun R s b t ≠ 0) ∧
    Fun R s (a.div b) =ᶠ[𝓝[≠] s.p] fun t => Fun R s a t / Fun R s b t := by
  refine ⟨h.mono ?_, h.mono ?_, h.mono ?_, h.mono ?_⟩
  all_goals
    rintro t ⟨r, hr⟩
    obtain ⟨u, v, hu, hv, hne, e⟩ := denote_div.1 hr
  · exact ⟨u, hu⟩
  · exact ⟨v, hv⟩
  · simpa [Fun, fn, hv] using hne
  · simp [Fun, fn, hr, hu, hv, e]

variable {x : Variable} {pt : Expr F} {k : UInt64} {m : Mode} {z : LimitExpression F}

theorem add_inv (h : LimitIs m (a.add b) x pt k z) : ∃ A B, LimitIs m a x pt k A ∧ LimitIs m b x pt k B ∧
    ∀ w, A.add B = some w → finish m w = .ok z := by
  obtain ⟨n, h⟩ := h
  cases n with
  | zero => cases h
  | succ n =>
    rw [limit_add, LOut.bind_eq_ok] at h
    obtain ⟨w, h1, h⟩ := h
    simp only [addBody, LOut.bind_eq_ok] at h1
    obtain ⟨B, hB, A, hA, h1⟩ := h1
    refine ⟨A, B, ⟨n, hA⟩, ⟨n, hB⟩, fun w' hw => ?_⟩
    rw [hw] at h1; cases h1; exact h

theorem mul_inv (h : LimitIs m (a.mul b) x pt k z) : ∃ A B, LimitIs m a x pt k A ∧ LimitIs m b x pt k B ∧
    ∀ w, A.mul B = some w → finish m w = .ok z := by
  obtain ⟨n, h⟩ := h
  cases n with
  | zero => cases h
  | succ n =>
    rw [limit_mul, LOut.bind_eq_ok] at h
    obtain ⟨w, h1, h⟩ := h
    simp only [mulBody, LOut.bind_eq_ok] at h1
    obtain ⟨B, hB, A, hA, h1⟩ := h1
    refine ⟨A, B, ⟨n, hA⟩, ⟨n, hB⟩, fun w' hw => ?_⟩
    rw [hw] at h1; cases h1; exact h

theorem div_inv (h : LimitIs m (a.div b) x pt k z) : ∃ A B, LimitIs m a x pt k A ∧ LimitIs m b x pt k B ∧
    ∀ w, A.div B = some w → finish m w = .ok z := by
  obtain ⟨n, h⟩ := h
  cases n with
  | zero => cases h
  | succ n =>
    rw [limit_div, LOut.bind_eq_ok] at h
    obtain ⟨w, h1, h⟩ := h
    simp only [divLoop, LOut.bind_eq_ok] at h1
    obtain ⟨A, hA, B, hB, h1⟩ := h1
    refine ⟨A, B, ⟨n, hA⟩, ⟨n, hB⟩, fun w' hw => ?_⟩
    rw [hw] at h1; cases h1; exact h

theorem unique {e : Expr F} {z' : LimitExpression F} (ht : Tree pt) (he : Tree e) (h : LimitIs m e x pt k z)
    (h' : LimitIs m e x pt k z') : z = z' := by
  obtain ⟨n, h⟩ := h
  obtain ⟨n', h'⟩ := h'
  have := limit_outcome_unique ht he (by rw [h]; simp) (by rw [h']; simp) (n := n) (n' := n')
  rw [h, h'] at this
  cases this; rfl

end

variable {s : Setting F} {m m' : Mode}

theorem value_holds (ok : s.Ok R m') {e : Expr F} {S : Set ℝ} (h : R.ValueAt s m e)
    (hS : R.Encloses (s.V.set s.x s.T) e S) : Holds R s e (.within S) := by
  have he : WF SmartNum.Valid e := h.built.valid
  have hpt := ok.built.valid
  have cT := ok.encl.cov hpt
  have cS := hS.cov he
  obtain ⟨p, hpT, hp⟩ := cT.value ok.mem
  have : p = s.p := by have := ok.val; rw [hp] at this; exact Option.some.inj this
  subst this
  obtain ⟨r, hrS, hr⟩ := cS.value (env_set_mem ok.mem hpT s.x)
  have hlC : LnOK s.x s.pt e := by
    rintro u hs a b rfl hx
    exact noLn_iff.1 (h.ln a b hs hx)
  rintro z ⟨n, hz⟩
  refine ⟨r, hrS, ?_, ?_⟩
  · obtain ⟨g, h1, h2, h3⟩ := denote_smooth he.tree hr h.pow 1
    simp only [Env.set_same, Env.set_set] at h1 h2 h3
    rw [← h3]
    refine (h2.continuousAt.tendsto.congr' ?_).mono_left nhdsWithin_le_nhds
    filter_upwards [h1] with t ht
    rw [Fun, fn, ht]; rfl
  · refine ⟨limit_meansC cT hpt (ok.clear.clearC hpt) ok.mem hp he (h.clear.clearC_at hpt he) hlC cS
      (fun h0 u hu a ha => h.sin h0 a (ha ▸ hu)) hz,
      (limit_exact hpt he hp hr ok.clear h.clear h.ln h.sin hz).1⟩

theorem tracks_holds (ok : s.Ok R m') {e : Expr F} {o : Fate} (h : R.Tracks s m e o) (hd : DefinedNear R s e) :
    Holds R s e o := by
  have ne : s.V.envs.Nonempty := ⟨_, ok.mem⟩
  have tp := ok.built.tree
  induction h with
  | value e S h hS => exact value_holds ok h hS
  | lhopital l r i S hl hr hj hS =>
    obtain ⟨-, -, -, e⟩ := fn_div hd
    intro z hz
    obtain ⟨i', -, h0, ⟨dl, dr, A, B, e1, e2, l1, l2, hAB⟩, hq⟩ := Rounding.quotient_meansC m m' l r s.pt ok.built s.x s.k z hz
      ok.clear s.V s.T ok.encl s.env ok.mem s.p ok.val hl hr
    have hii : i' = i := by
      rcases lt_trichotomy i' i with h | h | h
      · obtain ⟨dl', dr', A', B', e1', e2', l1', l2', hn⟩ := hj i' h
        rw [e1] at e1'; cases e1'
        rw [e2] at e2'; cases e2'
        have t1 := nthDerivative_tree hl.built.tree i' e1
        have t2 := nthDerivative_tree hr.built.tree i' e2
        cases unique tp t1 l1 l1'
        cases unique tp t2 l2 l2'
        rw [hn] at hAB; cases hAB
      · exact h
      · exfalso
        have wp := ok.built.valid
        have wl := hl.built.valid
        have wr := hr.built.valid
        obtain ⟨v, hr0⟩ := hr.value
        obtain ⟨p, hpT, hp⟩ := (ok.encl.cov wp).value ok.mem
        have : p = s.p := by have := ok.val; rw [hp] at this; exact Option.some.inj this
        subst this
        have wn : ∀ {e : Expr F}, WF SmartNum.Valid e → WF SmartNum.Valid (e.textbookN s.x i) := fun he =>
          textbookN_wf (SmartNum.valid_ofI64 0) (SmartNum.valid_ofI64 1) he i
        obtain ⟨q, -, hq⟩ := (hS.cov (.div _ _ (wn wl) (wn wr))).value (env_set_mem ok.mem hpT s.x)
        obtain ⟨u1, u2, hu1, hu2, hne, -⟩ := denote_div.1 hq
        have e2 := (textbook_iterated R.z0 R.o1 wr.tree hr0 hu2).1
        have hfn : fn R.real? (s.env.set s.x s.p) s.x r = fn R.real? s.env s.x r := by funext t; simp [fn]
        rw [hfn, Env.set_same, (h0 i h).2] at e2
        exact hne e2.symm
    subst hii
    obtain ⟨w, hw, -, ht, hm, hzero⟩ := hq S hS
    exact ⟨w, hw, ht.congr' e.symm, hm, hzero⟩
  | add a b S₁ S₂ S ha hb hS ia ib =>
    obtain ⟨da, db, e⟩ := fn_add hd
    intro z hz
    obtain ⟨A, B, hA, hB, hf⟩ := add_inv hz
    obtain ⟨u, hu, ta, mA, eA⟩ := ia da A hA
    obtain ⟨v, hv, tb, mB, eB⟩ := ib db B hB
    refine ⟨u + v, (hS u hu v hv).1 (mem_blur _), (ta.add tb).congr' e.symm, ?_⟩
    obtain ⟨w, hw, hm⟩ := add_meansC mA mB hS
    have hf := hf w hw
    refine ⟨finish_meansC ne hm hf, ?_⟩
    rintro rfl
    cases A <;> cases B <;> simp only [LimitExpression.add, Option.some.injEq, reduceCtorEq] at hw <;> subst hw
    all_goals first | exact mA.elim | exact mB.elim | skip
    · rw [eA rfl, eB rfl, add_zero]
    all_goals
      simp only [finish, LOut.bind_eq_ok] at hf
      obtain ⟨_, _, hf⟩ := hf
      cases hf
  | mul a b S₁ S₂ S ha hb hS ia ib =>
    obtain ⟨da, db, e⟩ := fn_mul hd
    intro z hz
    obtain ⟨A, B, hA, hB, hf⟩ := mul_inv hz
    obtain ⟨u, hu, ta, mA, eA⟩ := ia da A hA
    obtain ⟨v, hv, tb, mB, eB⟩ := ib db B hB
    refine ⟨u * v, (hS u hu v hv).1 (mem_blur _), (ta.mul tb).congr' e.symm, ?_⟩
    obtain ⟨w, hw, hm⟩ := mul_meansC ne mA mB hS
    have hf := hf w hw
    refine ⟨finish_meansC ne hm hf, ?_⟩
    rintro rfl
    cases A <;> cases B <;> simp only [LimitExpression.mul, Option.some.injEq, reduceCtorEq] at hw <;> subst hw
    all_goals first | exact mA.elim | exact mB.elim | skip
    · rw [eA rfl, zero_mul]
    · rw [eA rfl, zero_mul]
    · rw [eB rfl, mul_zero]
    all_goals
      simp only [finish, LOut.bind_eq_ok] at hf
      obtain ⟨_, _, hf⟩ := hf
      cases hf
  | div a b S₁ S₂ S ha hb hS ia ib =>
    obtain ⟨da, db, -, e⟩ := fn_div hd
    intro z hz
    obtain ⟨A, B, hA, hB, hf⟩ := div_inv hz
    obtain ⟨u, hu, ta, mA, eA⟩ := ia da A hA
    obtain ⟨v, hv, tb, mB, eB⟩ := ib db B hB
    refine ⟨u / v, (hS u hu v hv).2.1 (mem_blur _), (ta.div tb (hS u hu v hv).1).congr' e.symm, ?_⟩
    obtain ⟨w, hw, hm⟩ := div_meansC ne mA mB hS
    have hf := hf w hw
    refine ⟨finish_meansC ne hm hf, ?_⟩
    rintro rfl
    cases A with
    | infinitesimal => rw [eA rfl, zero_div]
    | normal c =>
      cases B with
      | infinitesimal => exact absurd (eB rfl) (hS u hu v hv).1
      | normal d =>
        simp only [LimitExpression.div, Option.some.injEq] at hw
        subst hw
        simp only [finish, LOut.bind_eq_ok] at hf
        obtain ⟨_, _, hf⟩ := hf
        cases hf
      | _ => exact mB.elim
    | _ => exact mA.elim
  | overInfinite a b S₁ S ha hb hS ia ib =>
    obtain ⟨da, db, -, e⟩ := fn_div hd
    intro z hz
    obtain ⟨A, B, hA, hB, hf⟩ := div_inv hz
    obtain ⟨u, hu, ta, mA, eA⟩ := ia da A hA
    obtain ⟨tb, rfl⟩ := ib db B hB
    refine ⟨0, hS, (div_inf ta tb).congr' e.symm, ?_⟩
    have : finish .strict (.infinitesimal : LimitExpression F) = .ok z := by
      cases A with
      | infinitesimal => exact hf _ rfl
      | normal c => exact hf _ rfl
      | _ => exact mA.elim
    cases this
    exact ⟨hS, fun _ => rfl⟩
  | pole a b S₁ S₂ ha h0 hb hz0 ia ib =>
    obtain ⟨da, db, dn, e⟩ := fn_div hd
    intro z hz
    obtain ⟨A, B, hA, hB, hf⟩ := div_inv hz
    cases unique tp hb.built.tree hz0 hB
    obtain ⟨u, hu, ta, mA, eA⟩ := ia da A hA
    obtain ⟨v, hv, tb, mB, eB⟩ := ib db _ hB
    cases eB rfl
    refine ⟨(pole_tendsto ta (fun h => h0 (h ▸ hu)) tb dn).congr' (abs_ev e.symm), ?_⟩
    cases A with
    | infinitesimal => exact absurd mA h0
    | normal c =>
      have hc : c.isZero = false := by
        by_contra hc
        exact h0 (isZero_cov mA.2.2 (by simpa using hc) mA.1)
      have := hf .infinity (by simp [LimitExpression.div, hc])
      cases this; rfl
    | _ => exact mA.elim
  | infiniteOver a b S₂ ha hb ia ib =>
    obtain ⟨da, db, dn, e⟩ := fn_div hd
    intro z hz
    obtain ⟨A, B, hA, hB, hf⟩ := div_inv hz
    obtain ⟨ta, rfl⟩ := ia da A hA
    obtain ⟨v, hv, tb, mB, eB⟩ := ib db B hB
    refine ⟨(inf_div ta tb dn).congr' (abs_ev e.symm), ?_⟩
    have : finish .strict (.infinity : LimitExpression F) = .ok z := by
      cases B with
      | infinitesimal => exact hf _ rfl
      | normal c => exact hf _ rfl
      | _ => exact mB.elim
    cases this; rfl
  | infiniteAdd a b S₂ ha hb ia ib =>
    obtain ⟨da, db, e⟩ := fn_add hd
    intro z hz
    obtain ⟨A, B, hA, hB, hf⟩ := add_inv hz
    obtain ⟨ta, rfl⟩ := ia da A hA
    obtain ⟨v, hv, tb, mB, eB⟩ := ib db B hB
    refine ⟨(inf_add ta tb).congr' (abs_ev e.symm), ?_⟩
    have : finish .strict (.infinity : LimitExpression F) = .ok z := by
      cases B with
      | infinitesimal => exact hf _ rfl
      | normal c => exact hf _ rfl
      | _ => exact mB.elim
    cases this; rfl
  | addInfinite a b S₁ ha hb ia ib =>
    obtain ⟨da, db, e⟩ := fn_add hd
    intro z hz
    obtain ⟨A, B, hA, hB, -⟩ := add_inv hz
    obtain ⟨u, hu, ta, mA, eA⟩ := ia da A hA
    obtain ⟨tb, rfl⟩ := ib db B hB
    refine ⟨((inf_add tb ta).congr fun t => by rw [add_comm]).congr' (abs_ev e.symm), ?_⟩
    have hn : A ≠ .infinity := by rintro rfl; exact mA
    exact unique tp (.add _ _ ha.built.tree hb.built.tree) hz (sum_inf ha.built.tree hb.built.tree tp hn hA hB)
  | infiniteMul a b S₂ ha hb h0 ia ib =>
    obtain ⟨da, db, e⟩ := fn_mul hd
    intro z hz
    obtain ⟨A, B, hA, hB, hf⟩ := mul_inv hz
    obtain ⟨ta, rfl⟩ := ia da A hA
    obtain ⟨v, hv, tb, mB, eB⟩ := ib db B hB
    refine ⟨(inf_mul ta tb fun h => h0 (h ▸ hv)).congr' (abs_ev e.symm), ?_⟩
    have : finish .strict (.infinity : LimitExpression F) = .ok z := by
      cases B with
      | infinitesimal => exact absurd mB h0
      | normal c => exact hf _ rfl
      | _ => exact mB.elim
    cases this; rfl
  | mulInfinite a b S₁ ha h0 hb ia ib =>
    obtain ⟨da, db, e⟩ := fn_mul hd
    intro z hz
    obtain ⟨A, B, hA, hB, hf⟩ := mul_inv hz
    obtain ⟨u, hu, ta, mA, eA⟩ := ia da A hA
    obtain ⟨tb, rfl⟩ := ib db B hB
    refine ⟨((inf_mul tb ta fun h => h0 (h ▸ hu)).congr fun t => by rw [mul_comm]).congr' (abs_ev e.symm), ?_⟩
    have : finish .strict (.infinity : LimitExpression F) = .ok z := by
      cases A with
      | infinitesimal => exact absurd mA h0
      | normal c => exact hf _ rfl
      | _ => exact mA.elim
    cases this; rfl
  | infiniteMulInfinite a b ha hb ia ib =>
    obtain ⟨da, db, e⟩ := fn_mul hd
    intro z hz
    obtain ⟨A, B, hA, hB, hf⟩ := mul_inv hz
    obtain ⟨ta, rfl⟩ := ia da A hA
    obtain ⟨tb, rfl⟩ := ib db B hB
    refine ⟨?_, ?_⟩
    · refine Tendsto.congr' (abs_ev e.symm) ?_
      simp only [abs_mul]
      exact ta.atTop_mul_atTop₀ tb
    · have := hf _ rfl
      cases this; rfl

end Rounding

/-- C76, finite limits: if error propagation through the rules of limits ends in `S` and the expression is defined near
the point, then for every answer of the program the true limit `w` exists and lies in `S`, and the answer is
Infinitesimal with `w = 0`, or a Normal in `S` (so is its `to_f64` if it is a number). -/
theorem C76_finite (R : Rounding F) (s : Setting F) (m m' : Mode) (ok : s.Ok R m') (e : Expr F) (S : Set ℝ)
    (ht : R.Tracks s m e (.within S)) (hd : R.DefinedNear s e) (z : LimitExpression F)
    (h : LimitIs .strict e s.x s.pt s.k z) :
    ∃ w ∈ S, Tendsto (fn R.real? s.env s.x e) (𝓝[≠] s.p) (𝓝 w) ∧
      ((z = .infinitesimal ∧ w = 0) ∨ ∃ c, z = .normal c ∧ (∃ v ∈ S, denote R.real? s.env c = some v) ∧
        ∀ n, c = ofNum n → ∃ f ∈ S, R.val n.toF64 = some f) := by
  obtain ⟨w, hw, hl, hm, hz⟩ := tracks_holds ok ht hd z h
  refine ⟨w, hw, hl, ?_⟩
  cases z with
  | infinitesimal => exact .inl ⟨rfl, hz rfl⟩
  | normal c => exact .inr ⟨_, rfl, hm.1.results ok.mem⟩
  | _ => exact hm.elim

/-- C76, infinite limits: if error propagation ends with "infinite", then every answer of the program is Infinity, and
the absolute value of the function does tend to infinity. -/
theorem C76_infinite (R : Rounding F) (s : Setting F) (m m' : Mode) (ok : s.Ok R m') (e : Expr F)
    (ht : R.Tracks s m e .infinite) (hd : R.DefinedNear s e) (z : LimitExpression F)
    (h : LimitIs .strict e s.x s.pt s.k z) :
    z = .infinity ∧ Tendsto (fun t => |fn R.real? s.env s.x e t|) (𝓝[≠] s.p) atTop :=
  (tracks_holds ok ht hd z h).symm

/-- Instances, in IEEE double arithmetic: the limit of `sin(pi * x) / (3 * x) + pi` at the literal 0 is a number whose
double is within 2^-29 of 4π/3, which is the true limit; that of `sin(pi * x) / (3 * x) * (1 / x)` is Infinity, and the
absolute value of that function tends to infinity. -/
theorem C76_example : let q : Expr Float.Model := ((Expr.pi.mul (newVariable "x")).sin).div ((Expr.ofI64 3).mul (newVariable "x"))
    ((∃ c f, LimitIs .strict (q.add Expr.pi) ⟨"x"⟩ zero 1 (.normal (ofNum c)) ∧
        F64.value c.toF64 = some f ∧ |f - 4 * Real.pi / 3| ≤ 2⁻¹ ^ 29) ∧
      ∀ env, ∃ w, |w - 4 * Real.pi / 3| ≤ 2⁻¹ ^ 29 ∧
        Tendsto (fn F64.rounding.real? env ⟨"x"⟩ (q.add Expr.pi)) (𝓝[≠] 0) (𝓝 w)) ∧
    LimitIs .strict (q.mul (one.div (newVariable "x"))) ⟨"x"⟩ zero 1 .infinity ∧
      ∀ env, Tendsto (fun t => |fn F64.rounding.real? env ⟨"x"⟩ (q.mul (one.div (newVariable "x"))) t|) (𝓝[≠] 0) atTop := by
  intro q
  set R := F64.rounding with hR
  obtain ⟨c, hc⟩ : ∃ c, LimitIs .strict (q.add Expr.pi) ⟨"x"⟩ zero 1 (.normal (ofNum c)) := by
    refine ⟨⟨.real (FloatOps.add (FloatOps.div FloatOps.pi (FloatOps.ofI64 3)) FloatOps.pi), .nothing⟩, 9, ?_⟩
    krfl
  have hi : LimitIs .strict (q.mul (one.div (newVariable "x"))) ⟨"x"⟩ zero 1 .infinity := ⟨9, by krfl⟩
  have bz : Built .strict (zero : Expr Float.Model) := .num _ (.ofI64 0)
  have i0 : R.real? (SmartNum.ofI64 0) = some 0 := R.z0
  have i1 : R.real? (SmartNum.ofI64 1) = some 1 := R.o1
  have i3 : R.real? (SmartNum.ofI64 3) = some 3 := by
    have := R.real?_ofI64 3
    rw [this, show (3 : Int64).toInt = 3 from by decide]; norm_num
  have hx : (newVariable "x" : Expr Float.Model) = ofVar ⟨"x"⟩ := rfl
  have dpi : ∀ env, denote R.real? env (Expr.pi : Expr Float.Model) = some Real.pi := fun env => by
    rw [Expr.pi, denote_ofNum]; rfl
  have hu : R.u = 2⁻¹ ^ 53 := rfl
  have hη : R.η ≤ 2⁻¹ ^ 60 := pow_le_pow_of_le_one (by norm_num) (by norm_num) (show 60 ≤ 1075 by norm_num)
  have pp := Real.pi_pos
  have p3 := Real.pi_gt_three
  have p4 := Real.pi_le_four
  have main : ∀ env : Env, let s : Setting Float.Model := ⟨⟨"x"⟩, zero, 1, point env, R.blur 0, env, 0⟩
      s.Ok R .strict ∧ R.Tracks s .strict (q.add Expr.pi) (.within {z | |z - 4 * Real.pi / 3| ≤ 2⁻¹ ^ 29}) ∧
      R.Tracks s .strict (q.mul (one.div (newVariable "x"))) .infinite ∧
      R.DefinedNear s (q.add Expr.pi) ∧ R.DefinedNear s (q.mul (one.div (newVariable "x"))) := by
    intro env s
    obtain ⟨ql, qr, E, hE, hS⟩ := sinPi_facts env
    have hq : R.Tracks s .strict q (.within {z | |z - Real.pi / 3| ≤ E}) := by
      refine .lhopital _ _ 1 _ ql qr (fun j hj => ?_) hS
      obtain rfl : j = 0 := by omega
      exact ⟨_, _, .infinitesimal, .infinitesimal, rfl, rfl, ⟨2, by krfl⟩, ⟨3, by krfl⟩, rfl⟩
    have hv : ∀ {e : Expr Float.Model}, Built .strict e → NoFn e → R.ValueAt s .strict e := fun {e} he nf =>
      ⟨he, nf.clear R _, fun a b hab => absurd rfl ((nf _ hab).pow a b),
        fun s hs a b hab => absurd hab ((nf s hs).pow a b), fun _ a ha => absurd rfl ((nf _ ha).sin a)⟩
    have hpi : R.Tracks s .strict Expr.pi (.within (R.blur Real.pi)) :=
      .value _ _ (hv (.num _ .pi) (noFn_ofNum _)) (.num _ _ _ rfl subset_rfl)
    have h1 : R.Tracks s .strict one (.within (R.blur 1)) :=
      .value _ _ (hv (.num _ (.ofI64 1)) (noFn_ofNum _)) (.num _ _ _ i1 subset_rfl)
    have hxx : R.Tracks s .strict (newVariable "x") (.within (R.blur 0)) := by
      refine .value _ _ (hv (.var _) (noFn_ofVar _)) (.var _ _ ?_)
      simp [s, Ranges.set]
    have dx : ∀ t : ℝ, denote R.real? (env.set ⟨"x"⟩ t) (newVariable "x" : Expr Float.Model) = some t := fun t => by
      rw [hx]; simp
    have dq : ∀ t : ℝ, t ≠ 0 → ∃ r, denote R.real? (env.set ⟨"x"⟩ t) q = some r := fun t ht =>
      ⟨_, denote_div.2 ⟨_, _, denote_sin.2 ⟨_, denote_mul.2 ⟨_, _, dpi _, dx t, rfl⟩, rfl⟩,
        denote_mul.2 ⟨_, _, by rw [Expr.ofI64, denote_ofNum]; exact i3, dx t, rfl⟩, by simpa using ht, rfl⟩⟩
    have hne : ∀ᶠ t : ℝ in 𝓝[≠] 0, t ≠ 0 := eventually_mem_nhdsWithin
    refine ⟨⟨bz, (noFn_ofNum _).clear R _, .num _ 0 _ i0 subset_rfl, mem_point env, by
        show denote R.real? env (ofNum (SmartNum.ofI64 0)) = some 0
        rw [denote_ofNum]; exact i0⟩, .add _ _ _ _ _ hq hpi ?_, .mulInfinite _ _ _ hq ?_
        (.pole _ _ _ _ h1 ?_ hxx ⟨1, by krfl⟩), ?_, ?_⟩
    · intro u hu' v hv'
      have hu' : |u - Real.pi / 3| ≤ E := hu'
      have hv' : |v - Real.pi| ≤ 8 * R.u * |Real.pi| + 4 * R.η := hv'
      have hu' := hu'.trans hE
      rw [hu, abs_of_pos pp] at hv'
      rw [abs_le] at hu' hv'
      have huv : |u + v| ≤ 10 := by
        rw [abs_le]; norm_num at hu' hv' hη ⊢; constructor <;> linarith
      refine ⟨fun y hy => ?_, huv.trans ((by norm_num : (10 : ℝ) ≤ 2 ^ 70).trans R.big_large)⟩
      have hy : |y - (u + v)| ≤ 8 * R.u * |u + v| + 4 * R.η := hy
      rw [hu] at hy
      have hy : |y - (u + v)| ≤ 8 * 2⁻¹ ^ 53 * 10 + 4 * R.η := hy.trans (by gcongr)
      rw [abs_le] at hy
      show |y - 4 * Real.pi / 3| ≤ _
      rw [abs_le]
      norm_num at hu' hv' hη hy ⊢
      constructor <;> linarith
    · intro h0
      have h0 : |0 - Real.pi / 3| ≤ E := h0
      have h0 := h0.trans hE
      rw [abs_le] at h0
      norm_num at h0
      linarith
    · intro h0
      have h0 : |0 - 1| ≤ 8 * R.u * |(1 : ℝ)| + 4 * R.η := h0
      rw [hu] at h0
      norm_num at h0 hη
      linarith
    · filter_upwards [hne] with t ht
      obtain ⟨r, hr⟩ := dq t ht
      exact ⟨_, denote_add.2 ⟨_, _, hr, dpi _, rfl⟩⟩
    · filter_upwards [hne] with t ht
      obtain ⟨r, hr⟩ := dq t ht
      exact ⟨_, denote_mul.2 ⟨_, _, hr, denote_div.2 ⟨_, _, by rw [one, Expr.ofI64, denote_ofNum]; exact i1,
        dx t, ht, rfl⟩, rfl⟩⟩
  refine ⟨⟨?_, fun env => ?_⟩, hi, fun env => ?_⟩
  · obtain ⟨ok, h1, -, h2, -⟩ := main fun _ => 0
    obtain ⟨w, -, -, hz⟩ := C76_finite R _ _ _ ok _ _ h1 h2 _ hc
    rcases hz with ⟨h1, -⟩ | ⟨c', h1, -, h2⟩
    · cases h1
    · cases h1
      obtain ⟨f, h3, h4⟩ := h2 c rfl
      exact ⟨c, f, hc, h4, h3⟩
  · obtain ⟨ok, h1, -, h2, -⟩ := main env
    obtain ⟨w, hw, ht, -⟩ := C76_finite R _ _ _ ok _ _ h1 h2 _ hc
    exact ⟨w, hw, ht⟩
  · obtain ⟨ok, -, h1, -, h2⟩ := main env
    exact (C76_infinite R _ _ _ ok _ h1 h2 _ hi).2

end SymRust
