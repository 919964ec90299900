import Verif.Spec.LimitForm
import Verif.Props.LimitShape
import Verif.Props.LimitSem
import Verif.Props.Aggregate
/-! # C69: away from the literal 0, limits of rational expressions are evaluations -/

namespace SymRust
variable {F : Type} [FloatOps F]
open Expr Filter Topology

/-- What `num_aggregate` returns, as an answer of `limit`. -/
def evalAnswer : Res (Expr F) → LOut (LimitExpression F)
  | .ok c => .ok (.normal c)
  | .panic => .panic

theorem finish_fixed {m : Mode} {c : Expr F} (h : c.numAggregate m = .ok c) : finish m (.normal c) = .ok (.normal c) := by
  simp [finish, h]

omit [FloatOps F] in
theorem FieldForm.noSub {e : Expr F} (h : FieldForm e) {x : Variable} {pt : Expr F} (hp : Everywhere NoSubAt pt) :
    Everywhere NoSubAt (e.replace x pt) := by
  induction h with
  | num n => rw [replace_ofNum]; exact everywhere_ofNum.2 (noSubAt_ofNum n)
  | var v =>
    rw [replace_ofVar]
    split_ifs
    · exact hp
    · exact everywhere_ofVar.2 fun a b h => by expr_inj at h
  | add _ _ i j => rw [replace_add]; exact everywhere_add.2 ⟨fun a b h => by expr_inj at h, i, j⟩
  | mul _ _ i j => rw [replace_mul]; exact everywhere_mul.2 ⟨fun a b h => by expr_inj at h, i, j⟩
  | div _ _ i j => rw [replace_div]; exact everywhere_div.2 ⟨fun a b h => by expr_inj at h, i, j⟩

theorem agg_again {m : Mode} {e e' : Expr F} (he : Tree e) (hs : Everywhere NoSubAt e) (h : e.numAggregate m = .ok e') :
    e'.numAggregate m = .ok e' := by
  have := agg_of_numAggregate he h
  exact fixed_of_normal m (this.wf (numClosed_true m) he) this.normal (this.noDoubleNeg hs)

/-- The whole computation: `limit` of such an expression is `num_aggregate` of it with the point put in. -/
theorem limit_eval {m : Mode} {x : Variable} {pt e : Expr F} {k : UInt64} (hf : FieldForm e) (hp : Tree pt)
    (hz : pt.isZero = false) (hs : Everywhere NoSubAt pt) {n : Nat} (hn : depth e ≤ n) :
    limit m x pt k n e = evalAnswer ((e.replace x pt).numAggregate m) := by
  have tr : ∀ {e : Expr F}, FieldForm e → Tree (e.replace x pt) := by
    intro e h
    induction h with
    | num n => rw [replace_ofNum]; exact .num _ trivial
    | var v => rw [replace_ofVar]; split_ifs; exact hp; exact .var _
    | add _ _ i j => rw [replace_add]; exact .add _ _ i j
    | mul _ _ i j => rw [replace_mul]; exact .mul _ _ i j
    | div _ _ i j => rw [replace_div]; exact .div _ _ i j
  induction hf generalizing n with
  | num v =>
    obtain ⟨n, rfl⟩ : ∃ j, n = j + 1 := ⟨n - 1, by simp at hn; omega⟩
    rw [limit_ofNum, replace_ofNum, numAggregate_ofNum]; rfl
  | var v =>
    obtain ⟨n, rfl⟩ : ∃ j, n = j + 1 := ⟨n - 1, by simp at hn; omega⟩
    rw [limit_ofVar, replace_ofVar]
    simp only [hz, Bool.false_eq_true, if_false]
    split_ifs with h
    · simp only [LOut.ok_bind, finish]; cases pt.numAggregate m <;> rfl
    · simp only [LOut.ok_bind, finish, numAggregate_ofVar]; rfl
  | @add a b ha hb iha ihb =>
    rw [depth_add] at hn
    obtain ⟨n, rfl⟩ : ∃ j, n = j + 1 := ⟨n - 1, by omega⟩
    rw [limit_add, replace_add, numAggregate_add, addEvalRule_bind]
    simp only [addBody, iha (n := n) (by omega), ihb (n := n) (by omega)]
    cases hB : (b.replace x pt).numAggregate m with
    | panic => rfl
    | ok b' =>
      cases hA : (a.replace x pt).numAggregate m with
      | panic => rfl
      | ok a' =>
        simp only [evalAnswer, LOut.ok_bind, LimitExpression.add, finish, Res.ok_bind]
        rw [numAggregate_add, agg_again (tr ha) (ha.noSub hs) hA, agg_again (tr hb) (hb.noSub hs) hB]
        cases addEvalRule m [.ok a', .ok b'] <;> rfl
  | @mul a b ha hb iha ihb =>
    rw [depth_mul] at hn
    obtain ⟨n, rfl⟩ : ∃ j, n = j + 1 := ⟨n - 1, by omega⟩
    rw [limit_mul, replace_mul, numAggregate_mul, mulEvalRule_bind]
    simp only [mulBody, iha (n := n) (by omega), ihb (n := n) (by omega)]
    cases hB : (b.replace x pt).numAggregate m with
    | panic => rfl
    | ok b' =>
      cases hA : (a.replace x pt).numAggregate m with
      | panic => rfl
      | ok a' =>
        simp only [evalAnswer, LOut.ok_bind, LimitExpression.mul, finish, Res.ok_bind]
        rw [numAggregate_mul, agg_again (tr ha) (ha.noSub hs) hA, agg_again (tr hb) (hb.noSub hs) hB]
        cases mulEvalRule m [.ok a', .ok b'] <;> rfl
  | @div a b ha hb iha ihb =>
    rw [depth_div] at hn
    obtain ⟨n, rfl⟩ : ∃ j, n = j + 1 := ⟨n - 1, by omega⟩
    rw [limit_div, replace_div, numAggregate_div, divEvalRule_bind]
    simp only [divLoop, iha (n := n) (by omega), ihb (n := n) (by omega)]
    cases hA : (a.replace x pt).numAggregate m with
    | panic => cases (b.replace x pt).numAggregate m <;> rfl
    | ok a' =>
      cases hB : (b.replace x pt).numAggregate m with
      | panic => rfl
      | ok b' =>
        simp only [evalAnswer, LOut.ok_bind, LimitExpression.div, LOut.pure_eq, finish, Res.ok_bind]
        rw [numAggregate_div, agg_again (tr ha) (ha.noSub hs) hA, agg_again (tr hb) (hb.noSub hs) hB]
        cases divEvalRule m [.ok a', .ok b'] <;> rfl

/-- C69: let `e` be made of numbers, variables, sums, products and quotients, and let the point not be the number 0 and
contain no subtraction.  Then, in every build and for every order, the limit is `num_aggregate` of `e` with the point
put in: it answers Normal of that, or panics exactly if that panics; it never answers Infinitesimal or Infinity and never
fails with an error. -/
theorem C69_evaluation (m m' : Mode) (e pt : Expr F) (x : Variable) (k : UInt64) (he : FieldForm e) (hpt : Built m' pt)
    (hz : pt.isZero = false) (hs : Everywhere NoSubAt pt) :
    (∀ z, LimitIs m e x pt k z ↔ ∃ c, (e.replace x pt).numAggregate m = .ok c ∧ z = .normal c) ∧
    (LimitPanics m e x pt k ↔ (e.replace x pt).numAggregate m = .panic) ∧ ¬ LimitErr m e x pt k ∧
    ¬ LimitDiverges m e x pt k := by
  have te : Tree e := by
    induction he with
    | num n => exact .num _ trivial
    | var v => exact .var _
    | add _ _ i j => exact .add _ _ i j
    | mul _ _ i j => exact .mul _ _ i j
    | div _ _ i j => exact .div _ _ i j
  have h0 : limit m x pt k (depth e) e = _ := limit_eval he hpt.tree hz hs le_rfl
  have hne : limit m x pt k (depth e) e ≠ .fuel := by
    rw [h0]; cases (e.replace x pt).numAggregate m <;> simp [evalAnswer]
  have key : ∀ n, limit m x pt k n e ≠ .fuel → limit m x pt k n e = evalAnswer ((e.replace x pt).numAggregate m) :=
    fun n h => (limit_outcome_unique hpt.tree te h hne).trans h0
  cases hr : (e.replace x pt).numAggregate m with
  | ok c =>
    rw [hr] at key h0
    refine ⟨fun z => ⟨?_, ?_⟩, ⟨?_, fun h => by cases h⟩, ?_, fun h => hne (h _)⟩
    · rintro ⟨n, h⟩
      have := key n (by rw [h]; simp)
      rw [h] at this
      cases this
      exact ⟨c, rfl, rfl⟩
    · rintro ⟨c, h, rfl⟩; cases h; exact ⟨_, h0⟩
    · rintro ⟨n, h⟩
      have := key n (by rw [h]; simp)
      rw [h] at this; cases this
    · rintro ⟨n, h⟩
      have := key n (by rw [h]; simp)
      rw [h] at this; cases this
  | panic =>
    rw [hr] at key h0
    refine ⟨fun z => ⟨?_, ?_⟩, ⟨fun _ => rfl, fun _ => ⟨_, h0⟩⟩, ?_, fun h => hne (h _)⟩
    · rintro ⟨n, h⟩
      have := key n (by rw [h]; simp)
      rw [h] at this; cases this
    · rintro ⟨c, h, -⟩; cases h
    · rintro ⟨n, h⟩
      have := key n (by rw [h]; simp)
      rw [h] at this; cases this

/-- C69: so poles away from the literal 0 are missed: for every float implementation, in every build and for every order,
the limit of 1 / (x + (-1)) at 1 is answered Normal(1/0) (a fraction with denominator 0), while the function tends to
infinity in absolute value. -/
theorem C69_pole_missed (m : Mode) (k : UInt64) (env : Env) :
    let e : Expr F := (ofI64 1).div ((newVariable "x").add (ofI64 (-1)))
    FieldForm e ∧ Built m (ofI64 1 : Expr F) ∧ (ofI64 1 : Expr F).isZero = false ∧ Everywhere NoSubAt (ofI64 1 : Expr F) ∧
    (∃ n : SmartNum F, LimitIs m e ⟨"x"⟩ (ofI64 1) k (.normal (ofNum n)) ∧ n.value = .rational ⟨1, 1, 0⟩) ∧
    Tendsto (fun t => |fn SmartNum.exactReal env ⟨"x"⟩ e t|) (𝓝[≠] 1) atTop := by
  intro e
  refine ⟨.div (.num _) (.add (.var _) (.num _)), .num _ (.ofI64 1), rfl, everywhere_ofNum.2 (noSubAt_ofNum _),
    ⟨⟨.rational ⟨1, 1, 0⟩, .nothing⟩, ⟨3, by cases m <;> krfl⟩, rfl⟩, ?_⟩
  have he : ∀ t : ℝ, t ≠ 1 → fn SmartNum.exactReal env ⟨"x"⟩ e t = 1 / (t + -1) := by
    intro t ht
    have h1 : t + -1 ≠ 0 := fun h => ht (by linarith)
    rw [fn, denote_div.2 ⟨1, t + -1, by rw [denote_int]; simp [show (1 : Int64).toInt = 1 by decide],
      denote_add.2 ⟨t, -1, by simp [newVariable, Env.set, denote], by
        rw [denote_int]; simp [show (-1 : Int64).toInt = -1 by decide], rfl⟩, h1, rfl⟩]; rfl
  have : Tendsto (fun t : ℝ => |t + -1|⁻¹) (𝓝[≠] 1) atTop := by
    refine Tendsto.comp tendsto_inv_nhdsGT_zero ?_
    refine tendsto_nhdsWithin_iff.2 ⟨?_, ?_⟩
    · have : Tendsto (fun t : ℝ => |t + -1|) (𝓝 1) (𝓝 |1 + -1|) := by
        exact (continuous_abs.comp (continuous_id.add continuous_const)).tendsto 1
      simpa using this.mono_left nhdsWithin_le_nhds
    · filter_upwards [self_mem_nhdsWithin] with t ht
      have h1 : t + -1 ≠ 0 := fun h => ht (by simp; linarith)
      exact abs_pos.2 h1
  refine this.congr' ?_
  filter_upwards [self_mem_nhdsWithin] with t ht
  rw [he t ht, abs_div, abs_one, one_div]

end SymRust
