import Verif.Proofs.EncloseLimit
import Verif.Proofs.LHopital
import Verif.Props.LimitSem
/-! # Rounded runs next to exact runs: floats paired with the real number they would be without rounding, untagged floats
at the start being exact -/

namespace SymRust
open Expr
variable {F : Type} [FloatOps F] {R : Rounding F}
namespace Rounding

noncomputable def liftN (R : Rounding F) (n : SmartNum F) : SmartNum (F × ℝ) :=
  match n.tag with
  | .pi => SmartNum.pi
  | .e => SmartNum.e
  | _ => n.map fun f => (f, (R.val f).getD 0)

theorem valid_liftN {n : SmartNum F} (hn : n.Valid) : (R.liftN n).Valid := by
  unfold liftN
  split
  · exact SmartNum.valid_pi
  · exact SmartNum.valid_e
  · rename_i h1 h2; exact SmartNum.valid_map hn h1 h2

theorem map_liftN {n : SmartNum F} (hn : n.Valid) : (R.liftN n).map Prod.fst = n := by
  unfold liftN
  split
  · rename_i h
    rw [SmartNum.pi_map fstHom]
    have := hn.pi_val (by simp [SmartNum.isPi, h])
    rcases n with ⟨v, t⟩; simp_all [SmartNum.pi]
  · rename_i h
    rw [SmartNum.e_map fstHom]
    have := hn.e_val (by simp [SmartNum.isE, h])
    rcases n with ⟨v, t⟩; simp_all [SmartNum.e]
  · rcases n with ⟨_ | _ | _, t⟩ <;> rfl

theorem value?_liftN {n : SmartNum F} {r : ℝ} (h : R.real? n = some r) : (R.liftN n).value? = some r := by
  rcases n with ⟨v, t⟩
  cases t with
  | pi => cases h; rfl
  | e => cases h; rfl
  | _ => cases v <;> simp_all [real?, liftN, SmartNum.value?, SmartNum.map,
    SmartNumVal.map, ExactFloat.val, SmartNum.exact?, SmartNumVal.exact?]

/-- The lifted expression. -/
noncomputable def lift (R : Rounding F) (e : Expr F) : Expr (F × ℝ) := e.mapNum R.liftN

theorem wf_lift {e : Expr F} (he : WF SmartNum.Valid e) : WF SmartNum.Valid (R.lift e) := by
  unfold Rounding.lift
  induction he with
  | num n hn => rw [mapNum_ofNum]; exact .num _ (valid_liftN hn)
  | var v => rw [mapNum_ofVar]; exact .var _
  | neg a _ i => rw [mapNum_neg]; exact .neg _ i
  | sin a _ i => rw [mapNum_sin]; exact .sin _ i
  | cos a _ i => rw [mapNum_cos]; exact .cos _ i
  | exp a _ i => rw [mapNum_exp]; exact .exp _ i
  | ln a _ i => rw [mapNum_ln]; exact .ln _ i
  | add a b _ _ i j => rw [mapNum_add]; exact .add _ _ i j
  | sub a b _ _ i j => rw [mapNum_sub]; exact .sub _ _ i j
  | mul a b _ _ i j => rw [mapNum_mul]; exact .mul _ _ i j
  | div a b _ _ i j => rw [mapNum_div]; exact .div _ _ i j
  | pow a b _ _ i j => rw [mapNum_pow]; exact .pow _ _ i j

theorem map_lift {e : Expr F} (he : WF SmartNum.Valid e) : (R.lift e).map Prod.fst = e := by
  unfold Rounding.lift
  induction he with
  | num n hn => rw [mapNum_ofNum, map_ofNum, map_liftN hn]
  | _ => simp_all

theorem denote_lift {e : Expr F} (he : Tree e) {env : Env} {r : ℝ} (h : denote R.real? env e = some r) :
    denote SmartNum.value? env (R.lift e) = some r :=
  denote_mapNum he (fun _ _ _ => value?_liftN) h

theorem avoids_lift {E E' : Set Env} (hE : E ⊆ E') {a : Expr F} (ha : Tree a) {c : ℝ}
    (h : Avoids R.real? E a c) : Avoids SmartNum.value? E' (R.lift a) c := by
  obtain ⟨env, he, r, hr, hc⟩ := h
  exact ⟨env, hE he, r, denote_lift ha hr, hc⟩

theorem safe_lift {E E' : Set Env} (hE : E ⊆ E') {e : Expr F} (he : Tree e) (h : Safe R.real? E e) :
    Safe SmartNum.value? E' (R.lift e) := by
  intro s hs
  obtain ⟨s0, h0, rfl⟩ := subterm_mapNum hs e rfl
  have t0 := tree_sub he h0
  refine ⟨?_, ?_, ?_, ?_⟩
  · intro a ha
    obtain ⟨a0, rfl, rfl⟩ := unary_mapNum (op := genOpCos) ha.symm
    exact avoids_lift hE (tree_sub t0 (.child _ _ a0 (by simp) .refl)) ((h _ h0).cos a0 rfl)
  · intro a b ha
    obtain ⟨a0, b0, rfl, rfl, rfl⟩ := binary_mapNum (op := genOpPow) ha.symm
    exact avoids_lift hE (tree_sub t0 (.child _ _ a0 (by simp) .refl)) ((h _ h0).pow_zero a0 b0 rfl)
  · intro a b ha
    obtain ⟨a0, b0, rfl, rfl, rfl⟩ := binary_mapNum (op := genOpPow) ha.symm
    exact avoids_lift hE (tree_sub t0 (.child _ _ a0 (by simp) .refl)) ((h _ h0).pow_one a0 b0 rfl)
  · intro a b ha
    obtain ⟨a0, b0, rfl, rfl, rfl⟩ := binary_mapNum (op := genOpPow) ha.symm
    exact noLn_mapNum ((h _ h0).pow_ln a0 b0 rfl)

theorem safeD_lift {E E' : Set Env} (hE : E ⊆ E') {e : Expr F} (he : Tree e) (h : SafeD R.real? E e) :
    SafeD SmartNum.value? E' (R.lift e) := by
  refine ⟨safe_lift hE he h.1, ?_⟩
  intro s hs a ha
  obtain ⟨s0, h0, rfl⟩ := subterm_mapNum hs e rfl
  have t0 := tree_sub he h0
  obtain ⟨a0, rfl, rfl⟩ := unary_mapNum (op := genOpSin) ha.symm
  exact avoids_lift hE (tree_sub t0 (.child _ _ a0 (by simp) .refl)) (h.2 _ h0 a0 rfl)

theorem powOK_lift {env : Env} {x : Variable} {e : Expr F} (he : Tree e)
    (h : PowOK R.real? env x e) : PowOK SmartNum.value? env x (R.lift e) := by
  intro s hs a b ha
  obtain ⟨s0, h0, rfl⟩ := subterm_mapNum hs e rfl
  have t0 := tree_sub he h0
  obtain ⟨a0, b0, rfl, rfl, rfl⟩ := binary_mapNum (op := genOpPow) ha.symm
  obtain ⟨u, hu, h⟩ := h _ h0 a0 b0 rfl
  refine ⟨u, denote_lift (tree_sub t0 (.child _ _ a0 (by simp) .refl)) hu, ?_⟩
  rw [occurs_mapNum (tree_sub t0 (.child _ _ b0 (by simp) .refl))]
  exact h

theorem ln_lift {x : Variable} {v e : Expr F} (he : Tree e) (h : NoLnIntoBase x v e) :
    LnOK x (R.lift v) (R.lift e) := by
  intro s hs a b ha hx
  obtain ⟨s0, h0, rfl⟩ := subterm_mapNum hs e rfl
  have t0 := tree_sub he h0
  obtain ⟨a0, b0, rfl, rfl, rfl⟩ := binary_mapNum (op := genOpPow) ha.symm
  rw [occurs_mapNum (tree_sub t0 (.child _ _ a0 (by simp) .refl))] at hx
  exact noLn_iff.1 (noLn_mapNum (h a0 b0 h0 hx))

theorem atPoint_lift {x : Variable} {v : Expr F} (hv : Tree v) :
    AtPoint R.real? x v ⊆ AtPoint SmartNum.value? x (R.lift v) := by
  rintro _ ⟨env, p, hp, rfl⟩
  exact ⟨env, p, denote_lift hv hp, rfl⟩

/-- A value anywhere means that all numbers have an exact value. -/
theorem denote_lift_eq {e : Expr F} (he : WF SmartNum.Valid e) {env0 : Env} {r : ℝ}
    (h : denote R.real? env0 e = some r) (env : Env) :
    denote SmartNum.value? env (R.lift e) = denote R.real? env e := by
  unfold Rounding.lift
  induction he generalizing r with
  | num n hn =>
    rw [denote_ofNum] at h
    rw [mapNum_ofNum, denote_ofNum, denote_ofNum, h, value?_liftN h]
  | var v => simp
  | neg a _ i => obtain ⟨u, hu, h⟩ := denote_neg.1 h; rw [mapNum_neg, denote_neg', denote_neg', i hu]
  | sin a _ i => obtain ⟨u, hu, h⟩ := denote_sin.1 h; rw [mapNum_sin, denote_sin', denote_sin', i hu]
  | cos a _ i => obtain ⟨u, hu, h⟩ := denote_cos.1 h; rw [mapNum_cos, denote_cos', denote_cos', i hu]
  | exp a _ i => obtain ⟨u, hu, h⟩ := denote_exp.1 h; rw [mapNum_exp, denote_exp', denote_exp', i hu]
  | ln a _ i => obtain ⟨u, hu, h⟩ := denote_ln.1 h; rw [mapNum_ln, denote_ln', denote_ln', i hu]
  | add a b _ _ i j =>
    obtain ⟨u, v, hu, hv, h⟩ := denote_add.1 h; rw [mapNum_add, denote_add', denote_add', i hu, j hv]
  | sub a b _ _ i j =>
    obtain ⟨u, v, hu, hv, h⟩ := denote_sub.1 h; rw [mapNum_sub, denote_sub', denote_sub', i hu, j hv]
  | mul a b _ _ i j =>
    obtain ⟨u, v, hu, hv, h⟩ := denote_mul.1 h; rw [mapNum_mul, denote_mul', denote_mul', i hu, j hv]
  | div a b _ _ i j =>
    obtain ⟨u, v, hu, hv, h⟩ := denote_div.1 h; rw [mapNum_div, denote_div', denote_div', i hu, j hv]
  | pow a b _ _ i j =>
    obtain ⟨u, v, hu, hv, h⟩ := denote_pow.1 h; rw [mapNum_pow, denote_pow', denote_pow', i hu, j hv]

theorem fn_lift {e : Expr F} (he : WF SmartNum.Valid e) {env0 : Env} {r : ℝ}
    (h : denote R.real? env0 e = some r) (env : Env) (x : Variable) :
    fn SmartNum.value? env x (R.lift e) = fn R.real? env x e := by
  funext t; unfold fn; rw [denote_lift_eq he h]


theorem isZero_lift {e : Expr F} (he : WF SmartNum.Valid e) : (R.lift e).isZero = e.isZero := by
  rw [← map_lift (R := R) he, isZero_map, map_lift he]

end Rounding
end SymRust
