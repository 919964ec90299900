import Verif.Spec.LimitForm
import Verif.Proofs.HeightExpr
import Verif.Proofs.Limit
import Verif.Proofs.AggFacts
/-! # Limits that succeed -/

namespace SymRust
variable {F : Type} [FloatOps F]
open Expr

/-- Simplifying part of an answer for the target `t`. -/
theorem agg_good {m : Mode} {c t : Expr F} (H : m = .release ∨ Small t) (hc : WF SmartNum.Valid c)
    (b : Small t → Below c t) :
    ∃ c', c.numAggregate m = .ok c' ∧ WF SmartNum.Valid c' ∧ (Small t → Below c' t) := by
  have key : Small t → ∃ c', c.numAggregate m = .ok c' ∧ WF SmartNum.Valid c' ∧ Below c' t := fun hs => by
    obtain ⟨r, h1, h2, h3⟩ := numAggregate_small hc ((b hs).small hs)
    exact ⟨r, numAggregate_mono (Mode.strict_le m) hc.tree r h1, h3, h2.trans (b hs)⟩
  by_cases hs : Small t
  · obtain ⟨c', h1, h2, h3⟩ := key hs
    exact ⟨c', h1, h2, fun _ => h3⟩
  · obtain rfl := H.resolve_right hs
    obtain ⟨c', h⟩ := numAggregate_release hc.tree
    exact ⟨c', h, (agg_of_numAggregate hc.tree h).wf (numClosed_valid _) hc, fun h => absurd h hs⟩

/-- A finite answer for the target `t`. -/
def GoodFor (t : Expr F) : LimitExpression F → Prop
  | .infinitesimal => True
  | .normal c => WF SmartNum.Valid c ∧ (Small t → Below c t)
  | _ => False

theorem finish_good {m : Mode} {t : Expr F} (H : m = .release ∨ Small t) {a : LimitExpression F} (ha : GoodFor t a) :
    ∃ z, finish m a = .ok z ∧ GoodFor t z := by
  cases a with
  | infinitesimal => exact ⟨_, rfl, trivial⟩
  | normal c =>
    obtain ⟨c', h1, h2, h3⟩ := agg_good H ha.1 ha.2
    exact ⟨.normal c', by simp [finish, h1], h2, h3⟩
  | _ => exact ha.elim

theorem finish_normal {m : Mode} {t c : Expr F} (H : m = .release ∨ Small t) (hc : WF SmartNum.Valid c)
    (b : Small t → Below c t) : ∃ z, finish m (.normal c) = .ok z ∧ GoodFor t z :=
  finish_good (a := .normal c) H ⟨hc, b⟩

theorem substLimit_good {m : Mode} {x : Variable} {pt e : Expr F} (hp : WF SmartNum.Valid pt)
    (he : WF SmartNum.Valid e) (H : m = .release ∨ Small (e.replace x pt)) :
    ∃ z, substLimit m e x pt = .ok z ∧ GoodFor (e.replace x pt) z := by
  obtain ⟨c', h1, h2, h3⟩ := agg_good H (he.replace hp x) (fun _ => .refl _)
  rw [substLimit_eq, h1]
  simp only [LOut.ofRes_ok, LOut.ok_bind]
  split_ifs
  · exact ⟨_, rfl, trivial⟩
  · exact ⟨_, rfl, h2, h3⟩

theorem small_add_iff {a b : Expr F} : Small (a.add b) → Small a ∧ Small b := fun h => (everywhere_add.1 h).2
theorem small_mul_iff {a b : Expr F} : Small (a.mul b) → Small a ∧ Small b := fun h => (everywhere_mul.1 h).2
theorem small_div_iff {a b : Expr F} : Small (a.div b) → Small a ∧ Small b := fun h => (everywhere_div.1 h).2

theorem limit_good {m : Mode} {x : Variable} {pt : Expr F} {k : UInt64} {D : Expr F → Prop}
    (hp : WF SmartNum.Valid pt)
    (hD : ∀ b, D b → ∀ n z, limit m x pt k n b = .ok z → ∃ c, z = .normal c ∧ c.isZero = false)
    {e : Expr F} (hf : LimitForm D e) (he : WF SmartNum.Valid e) (H : m = .release ∨ Small (e.replace x pt))
    {n : Nat} (hn : depth e ≤ n) : ∃ z, limit m x pt k n e = .ok z ∧ GoodFor (e.replace x pt) z := by
  induction hf generalizing n with
  | num v =>
    obtain ⟨n, rfl⟩ : ∃ j, n = j + 1 := ⟨n - 1, by simp at hn; omega⟩
    exact ⟨_, limit_ofNum .., he, fun _ => by rw [replace_ofNum]; exact .refl _⟩
  | var v =>
    obtain ⟨n, rfl⟩ : ∃ j, n = j + 1 := ⟨n - 1, by simp at hn; omega⟩
    rw [limit_ofVar]
    rw [replace_ofVar] at H ⊢
    split_ifs with h1 h2
    · exact ⟨_, rfl, trivial⟩
    · rw [if_pos h1] at H
      exact finish_good (a := .normal pt) H ⟨hp, fun _ => .refl _⟩
    · rw [if_neg h1] at H
      exact finish_good (a := .normal (ofVar v)) H ⟨.var _, fun _ => .refl _⟩
  | sin a =>
    obtain ⟨n, rfl⟩ : ∃ j, n = j + 1 := ⟨n - 1, by simp at hn; omega⟩
    rw [limit_sin]
    split_ifs with h
    · exact ⟨_, rfl, trivial⟩
    · obtain ⟨z, h1, h2⟩ := substLimit_good hp he H
      rw [h1]
      exact finish_good H h2
  | cos a =>
    obtain ⟨n, rfl⟩ : ∃ j, n = j + 1 := ⟨n - 1, by simp at hn; omega⟩
    rw [limit_cos]
    obtain ⟨z, h1, h2⟩ := substLimit_good hp he H
    rw [h1]
    exact finish_good H h2
  | @add a b _ _ iha ihb =>
    rw [depth_add] at hn
    obtain ⟨n, rfl⟩ : ∃ j, n = j + 1 := ⟨n - 1, by omega⟩
    obtain ⟨wa, wb⟩ := WF.add_iff.1 he
    rw [replace_add] at H ⊢
    obtain ⟨A, hA, gA⟩ := iha wa (H.imp_right fun h => (small_add_iff h).1) (n := n) (by omega)
    obtain ⟨B, hB, gB⟩ := ihb wb (H.imp_right fun h => (small_add_iff h).2) (n := n) (by omega)
    rw [limit_add]
    simp only [addBody, hA, hB, LOut.ok_bind]
    cases A <;> cases B <;> try exact gA.elim
    all_goals try exact gB.elim
    · exact ⟨_, rfl, trivial⟩
    · exact finish_normal H gB.1 (fun h => (gB.2 (small_add_iff h).2).trans (.add_r _ _))
    · exact finish_normal H gA.1 (fun h => (gA.2 (small_add_iff h).1).trans (.add_l _ _))
    · exact finish_normal H (.add _ _ gA.1 gB.1) (fun h => .add (gA.2 (small_add_iff h).1) (gB.2 (small_add_iff h).2))
  | @mul a b _ _ iha ihb =>
    rw [depth_mul] at hn
    obtain ⟨n, rfl⟩ : ∃ j, n = j + 1 := ⟨n - 1, by omega⟩
    obtain ⟨wa, wb⟩ := WF.mul_iff.1 he
    rw [replace_mul] at H ⊢
    obtain ⟨A, hA, gA⟩ := iha wa (H.imp_right fun h => (small_mul_iff h).1) (n := n) (by omega)
    obtain ⟨B, hB, gB⟩ := ihb wb (H.imp_right fun h => (small_mul_iff h).2) (n := n) (by omega)
    rw [limit_mul]
    simp only [mulBody, hA, hB, LOut.ok_bind]
    cases A <;> cases B <;> try exact gA.elim
    all_goals try exact gB.elim
    · exact ⟨_, rfl, trivial⟩
    · exact ⟨_, rfl, trivial⟩
    · exact ⟨_, rfl, trivial⟩
    · exact finish_normal H (.mul _ _ gA.1 gB.1) (fun h => .mul (gA.2 (small_mul_iff h).1) (gB.2 (small_mul_iff h).2))
  | @div a b _ _ hb iha ihb =>
    rw [depth_div] at hn
    obtain ⟨n, rfl⟩ : ∃ j, n = j + 1 := ⟨n - 1, by omega⟩
    obtain ⟨wa, wb⟩ := WF.div_iff.1 he
    rw [replace_div] at H ⊢
    obtain ⟨A, hA, gA⟩ := iha wa (H.imp_right fun h => (small_div_iff h).1) (n := n) (by omega)
    obtain ⟨B, hB, gB⟩ := ihb wb (H.imp_right fun h => (small_div_iff h).2) (n := n) (by omega)
    obtain ⟨c, rfl, hc⟩ := hD b hb n B hB
    rw [limit_div]
    simp only [divLoop, hA, hB, LOut.ok_bind]
    cases A <;> try exact gA.elim
    · exact ⟨.infinitesimal, by simp [LimitExpression.div, hc, finish], trivial⟩
    · exact finish_normal H (.div _ _ gA.1 gB.1) (fun h => .div (gA.2 (small_div_iff h).1) (gB.2 (small_div_iff h).2))


/-- The rules cover nothing else: no other limit has an answer. -/
theorem limit_form {m : Mode} {x : Variable} {pt : Expr F} {k : UInt64} {n : Nat} {e : Expr F} {z : LimitExpression F}
    (ht : Tree pt) (he : Tree e) (h : limit m x pt k n e = .ok z) : LimitForm (fun _ => True) e := by
  induction n generalizing e z with
  | zero => cases h
  | succ n ih =>
    cases he with
    | num v hv => exact .num _
    | var v => exact .var _
    | sin a _ => exact .sin _
    | cos a _ => exact .cos _
    | neg a _ => rw [limit_neg] at h; cases h
    | exp a _ => rw [limit_exp] at h; cases h
    | ln a _ => rw [limit_ln] at h; cases h
    | pow a b _ _ => rw [limit_pow] at h; cases h
    | sub a b ha hb =>
      have := limit_sub_panic m x pt k n a b
      rcases limit_le (S := fun b => b = .fuel) (m := m) (x := x) (k := k) (n := n + 1) (n' := n + 3) (.inl rfl) (.inl rfl)
        (.inr ⟨by omega, rfl⟩) ht (.sub _ _ ha hb) with h' | ⟨b, rfl, h'⟩
      · rw [this, h] at h'; cases h'
      · rw [h] at h'; cases h'
    | add a b ha hb =>
      rw [limit_add, LOut.bind_eq_ok] at h
      obtain ⟨w, h, -⟩ := h
      simp only [addBody, LOut.bind_eq_ok] at h
      obtain ⟨B, hB, A, hA, -⟩ := h
      exact .add (ih ha hA) (ih hb hB)
    | mul a b ha hb =>
      rw [limit_mul, LOut.bind_eq_ok] at h
      obtain ⟨w, h, -⟩ := h
      simp only [mulBody, LOut.bind_eq_ok] at h
      obtain ⟨B, hB, A, hA, -⟩ := h
      exact .mul (ih ha hA) (ih hb hB)
    | div a b ha hb =>
      rw [limit_div, LOut.bind_eq_ok] at h
      obtain ⟨w, h, -⟩ := h
      simp only [divLoop, LOut.bind_eq_ok] at h
      obtain ⟨A, hA, B, hB, -⟩ := h
      exact .div (ih ha hA) (ih hb hB) trivial

end SymRust
