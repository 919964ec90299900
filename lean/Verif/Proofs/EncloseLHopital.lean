import Verif.Proofs.GhostR
import Verif.Proofs.Vanish
import Verif.Props.Enclose
/-! # Rounding errors in L'Hôpital steps -/

namespace SymRust
open Expr LimitExpression
variable {F : Type}

theorem defined_everywhere {ν : SmartNum F → Option ℝ} {env : Env} {e : Expr F} (he : Tree e) {r : ℝ}
    (h : denote ν env e = some r) : Everywhere (fun s => ∃ v, denote ν env s = some v) e := by
  induction he generalizing r with
  | num n => exact everywhere_ofNum.2 ⟨_, h⟩
  | var v => exact everywhere_ofVar.2 ⟨_, h⟩
  | neg a _ i => obtain ⟨u, hu, -⟩ := denote_neg.1 h; exact everywhere_neg.2 ⟨⟨_, h⟩, i hu⟩
  | sin a _ i => obtain ⟨u, hu, -⟩ := denote_sin.1 h; exact everywhere_sin.2 ⟨⟨_, h⟩, i hu⟩
  | cos a _ i => obtain ⟨u, hu, -⟩ := denote_cos.1 h; exact everywhere_cos.2 ⟨⟨_, h⟩, i hu⟩
  | exp a _ i => obtain ⟨u, hu, -⟩ := denote_exp.1 h; exact everywhere_exp.2 ⟨⟨_, h⟩, i hu⟩
  | ln a _ i => obtain ⟨u, hu, -⟩ := denote_ln.1 h; exact everywhere_ln.2 ⟨⟨_, h⟩, i hu⟩
  | add a b _ _ i j => obtain ⟨u, v, hu, hv, -⟩ := denote_add.1 h; exact everywhere_add.2 ⟨⟨_, h⟩, i hu, j hv⟩
  | sub a b _ _ i j => obtain ⟨u, v, hu, hv, -⟩ := denote_sub.1 h; exact everywhere_sub.2 ⟨⟨_, h⟩, i hu, j hv⟩
  | mul a b _ _ i j => obtain ⟨u, v, hu, hv, -⟩ := denote_mul.1 h; exact everywhere_mul.2 ⟨⟨_, h⟩, i hu, j hv⟩
  | div a b _ _ i j => obtain ⟨u, v, hu, hv, -⟩ := denote_div.1 h; exact everywhere_div.2 ⟨⟨_, h⟩, i hu, j hv⟩
  | pow a b _ _ i j => obtain ⟨u, v, hu, hv, -⟩ := denote_pow.1 h; exact everywhere_pow.2 ⟨⟨_, h⟩, i hu, j hv⟩

variable [FloatOps F] {R : Rounding F} {x : Variable} {pt e : Expr F}
namespace Rounding

theorem Differs.avoids_univ (h : R.Differs Set.univ e c) (he : WF SmartNum.Valid e) : Avoids R.real? Set.univ e c := by
  obtain ⟨V, -, ⟨env, hV⟩, S, hS, hc⟩ := h
  obtain ⟨v, h1, h2⟩ := (hS.cov he).value hV
  exact ⟨env, trivial, v, h2, fun h => hc (h ▸ h1)⟩

theorem Differs.avoids_at (h : R.Differs (R.Around x pt) e c) (hp : WF SmartNum.Valid pt) (he : WF SmartNum.Valid e) :
    Avoids R.real? (AtPoint R.real? x pt) e c := by
  obtain ⟨_, ⟨V, T, ⟨env, hV⟩, hT, rfl⟩, -, S, hS, hc⟩ := h
  obtain ⟨p, h3, h4⟩ := (hT.cov hp).value hV
  obtain ⟨v, h1, h2⟩ := (hS.cov he).value (env_set_mem hV h3 x)
  exact ⟨_, ⟨env, p, h4, rfl⟩, v, h2, fun h => hc (h ▸ h1)⟩

theorem Clear.safeD_of {𝒱 : Set Ranges} {E : Set Env}
    (H : ∀ a : Expr F, ∀ c, WF SmartNum.Valid a → R.Differs 𝒱 a c → Avoids R.real? E a c)
    (h : R.Clear 𝒱 e) (he : WF SmartNum.Valid e) : SafeD R.real? E e := by
  have sub : ∀ s, Subterm s e → WF SmartNum.Valid s := fun s hs => wf_sub he hs
  refine ⟨fun s hs => ⟨?_, ?_, ?_, ?_⟩, fun s hs => ?_⟩
  · rintro a rfl; exact H _ _ (WF.cos_iff.1 (sub _ hs)) ((h _ hs).cos a rfl)
  · rintro a b rfl; exact H _ _ (WF.pow_iff.1 (sub _ hs)).1 ((h _ hs).pow_zero a b rfl)
  · rintro a b rfl; exact H _ _ (WF.pow_iff.1 (sub _ hs)).1 ((h _ hs).pow_one a b rfl)
  · rintro a b rfl; exact (h _ hs).pow_ln a b rfl
  · rintro a rfl; exact H _ _ (WF.sin_iff.1 (sub _ hs)) ((h _ hs).sin a rfl)

theorem Clear.safe_univ (h : R.Clear Set.univ e) (he : WF SmartNum.Valid e) : Safe R.real? Set.univ e :=
  (h.safeD_of (fun _ _ ha hd => hd.avoids_univ ha) he).1

theorem Clear.safeD_at (h : R.Clear (R.Around x pt) e) (hp : WF SmartNum.Valid pt) (he : WF SmartNum.Valid e) :
    SafeD R.real? (AtPoint R.real? x pt) e :=
  h.safeD_of (fun _ _ ha hd => hd.avoids_at hp ha) he

theorem Clear.clearC_at (h : R.Clear (R.Around x pt) e) (hp : WF SmartNum.Valid pt) (he : WF SmartNum.Valid e) :
    R.ClearC (R.AtC x pt) e := by
  have sub : R.Around x pt ⊆ R.AtC x pt := by
    rintro V' ⟨V, T, h1, h2, rfl⟩
    exact ⟨V, T, h1, h2.cov hp, rfl⟩
  have up : ∀ {a c}, R.DiffC (R.Around x pt) a c → R.DiffC (R.AtC x pt) a c :=
    fun ⟨V, h1, h2⟩ => ⟨V, sub h1, h2⟩
  exact Everywhere.mono (fun s h => ⟨fun a ha => up (h.cos a ha), fun a ha => up (h.sin a ha),
    fun a b ha => ⟨up (h.pow a b ha).1, up (h.pow a b ha).2.1, (h.pow a b ha).2.2⟩⟩) (h.clearC he)

theorem limit_lift {m : Mode} {k : UInt64} {n : Nat} {z : LimitExpression F} (R : Rounding F)
    (he : WF SmartNum.Valid e) (hp : WF SmartNum.Valid pt) (h : limit m x pt k n e = .ok z) :
    ∃ d, limit m x (R.lift pt) k n (R.lift e) = .ok d ∧ d.map Prod.fst = z ∧ LimWF SmartNum.Valid d := by
  have := limit_map fstHom m x (wf_lift (R := R) hp).tree k n (wf_lift (R := R) he).tree
  rw [map_lift hp, map_lift he, h] at this
  cases hd : limit m x (R.lift pt) k n (R.lift e) with
  | ok d =>
    rw [hd] at this
    simp only [LOut.map, LOut.ok.injEq] at this
    exact ⟨d, rfl, this.symm, limit_wf (numClosed_valid m) (wf_lift hp) (wf_lift he) hd⟩
  | _ => rw [hd] at this; cases this

theorem nthDerivative_down {m : Mode} (he : WF SmartNum.Valid e) (i : Nat)
    {d : Expr (F × ℝ)} (h : nthDerivative m (R.lift e) x i = .ok d) :
    nthDerivative m e x i = .ok (d.map Prod.fst) ∧ WF SmartNum.Valid d := by
  induction i generalizing d with
  | zero => cases h; exact ⟨by rw [map_lift he]; rfl, wf_lift he⟩
  | succ i ih =>
    obtain ⟨d', h1, h2⟩ := Out.bind_eq_ok.1 h
    obtain ⟨i1, i2⟩ := ih h1
    refine ⟨?_, (der_of_derivative i2.tree h2).wf (numClosed_valid m) i2⟩
    simp only [nthDerivative, i1]
    have := derivative_map fstHom m x i2.tree
    rw [h2] at this
    exact this

theorem limit_down {m : Mode} {k : UInt64} {n : Nat} (hp : WF SmartNum.Valid pt) {d : Expr (F × ℝ)} (hd : WF SmartNum.Valid d)
    {a : LimitExpression (F × ℝ)} (h : limit m x (R.lift pt) k n d = .ok a) :
    limit m x pt k n (d.map Prod.fst) = .ok (a.map Prod.fst) := by
  have := limit_map fstHom m x (wf_lift (R := R) hp).tree k n hd.tree
  rw [map_lift hp, h] at this
  exact this

theorem zero_point (hp : WF SmartNum.Valid pt) (h0 : pt.isZero = true) {env : Env} {p : ℝ}
    (h : denote R.real? env pt = some p) : p = 0 := by
  obtain ⟨n, hv, rfl⟩ := hp.num_of_isNum (isZero_isNum h0)
  rw [isZero_ofNum] at h0
  rw [denote_ofNum, real?_zero hv h0] at h
  exact (Option.some.inj h).symm

theorem trig_sinZero {env : Env} {r : ℝ} (he : WF SmartNum.Valid e) (h : TrigAll (Vanishes x) e) (h0 : env x = 0)
    (hr : denote R.real? env e = some r) : TrigAll (SinZeroAt R.real? env) e := by
  intro s hs a ha
  have hsub : Subterm a e := by
    rcases ha with rfl | rfl
    · exact (Subterm.child _ _ a (by simp) .refl).trans hs
    · exact (Subterm.child _ _ a (by simp) .refl).trans hs
  obtain ⟨v, hv⟩ := defined_everywhere he.tree hr _ hsub
  refine ⟨v, hv, ?_⟩
  rw [Vanishes.value (fun n hn h => real?_zero hn h) (wf_sub he hsub) (h s hs a ha) h0 hv, Real.sin_zero]

theorem trigAll_lift {env : Env} (he : Tree e) (h : TrigAll (SinZeroAt R.real? env) e) :
    TrigAll (SinZeroAt SmartNum.value? env) (R.lift e) := by
  intro s hs a ha
  obtain ⟨s0, h1, rfl⟩ := subterm_mapNum hs e rfl
  rcases ha with ha | ha
  · obtain ⟨a0, rfl, rfl⟩ := unary_mapNum (op := genOpSin) ha.symm
    obtain ⟨w, hw, h2⟩ := h _ h1 a0 (.inl rfl)
    exact ⟨w, denote_lift (tree_sub (tree_sub he h1) (.child _ _ a0 (by simp) .refl)) hw, h2⟩
  · obtain ⟨a0, rfl, rfl⟩ := unary_mapNum (op := genOpCos) ha.symm
    obtain ⟨w, hw, h2⟩ := h _ h1 a0 (.inr rfl)
    exact ⟨w, denote_lift (tree_sub (tree_sub he h1) (.child _ _ a0 (by simp) .refl)) hw, h2⟩

/-- Exactly: Infinitesimal is returned only at a value 0. -/
theorem limit_exact {k : UInt64} {n : Nat} {z : LimitExpression F} {env : Env} {p r : ℝ} (wp : WF SmartNum.Valid pt)
    (he : WF SmartNum.Valid e) (hp : denote R.real? env pt = some p) (hr : denote R.real? (env.set x p) e = some r)
    (hsp : R.Clear Set.univ pt) (hs : R.Clear (R.Around x pt) e) (hl : NoLnIntoBase x pt e)
    (ht : R.SinZero env x pt p e) (h : limit .strict x pt k n e = .ok z) :
    (z = .infinitesimal → r = 0) ∧ z ≠ .infinity := by
  obtain ⟨d, h1, rfl, h2⟩ := limit_lift R he wp h
  have hm := limit_means (Rounding.denote_lift wp.tree hp) (Rounding.wf_lift wp)
    (safe_lift (E' := Set.univ) subset_rfl wp.tree (hsp.safe_univ wp)) (Rounding.wf_lift he)
    (safe_lift (Rounding.atPoint_lift wp.tree) he.tree (hs.safeD_at wp he).1) (ln_lift he.tree hl)
    (Rounding.denote_lift he.tree hr) (fun h0 s hs a ha => by
      rw [Rounding.isZero_lift wp] at h0
      obtain ⟨s0, h1, rfl⟩ := subterm_mapNum hs e rfl
      obtain ⟨a0, rfl, rfl⟩ := unary_mapNum (op := genOpSin) ha.symm
      obtain ⟨w, hw, h2⟩ := ht h0 a0 h1
      exact ⟨w, Rounding.denote_lift (tree_sub (tree_sub he.tree h1) (.child _ _ a0 (by simp) .refl)) hw, h2⟩) h1
  cases d with
  | infinitesimal => exact ⟨fun _ => hm, by simp [LimitExpression.map]⟩
  | normal c => exact ⟨by simp [LimitExpression.map], by simp [LimitExpression.map]⟩
  | _ => exact hm.elim

end Rounding
end SymRust
