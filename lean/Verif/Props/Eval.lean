import Verif.Spec.Eval
import Verif.Proofs.Subst
import Verif.Props.Aggregate
import Verif.Props.Semantics
/-! # Evaluating an expression by substituting numbers (C61) -/

namespace SymRust
variable {F : Type} [FloatOps F]
open Expr

section
omit [FloatOps F]

theorem RatValue.constValue {ρ : Variable → ℚ} {e : Expr F} {q : ℚ} (h : RatValue ρ e q) (hv : ∀ v, ¬ Occurs v e) :
    ConstValue e (some q) := by
  induction h with
  | num n q hn =>
    rw [← hn]
    refine .num _ fun f hf => ?_
    simp [SmartNum.exact?, hf, SmartNumVal.exact?] at hn
  | var v => exact absurd ((occurs_ofVar v v).2 rfl) (hv v)
  | neg _ i => exact .neg (i fun v h => hv v ((occurs_neg ..).2 h))
  | add _ _ i j => exact .add (i fun v h => hv v ((occurs_add ..).2 (.inl h))) (j fun v h => hv v ((occurs_add ..).2 (.inr h)))
  | sub _ _ i j => exact .sub (i fun v h => hv v ((occurs_sub ..).2 (.inl h))) (j fun v h => hv v ((occurs_sub ..).2 (.inr h)))
  | mul _ _ i j => exact .mul (i fun v h => hv v ((occurs_mul ..).2 (.inl h))) (j fun v h => hv v ((occurs_mul ..).2 (.inr h)))
  | div _ _ h0 i j =>
    have := ConstValue.div (i fun v h => hv v ((occurs_div ..).2 (.inl h))) (j fun v h => hv v ((occurs_div ..).2 (.inr h)))
    simpa [h0] using this

theorem RatValue.replace {ρ : Variable → ℚ} {e : Expr F} {q : ℚ} (h : RatValue ρ e q) {x : Variable} {n : SmartNum F}
    (hn : Occurs x e → n.exact? = some (ρ x)) : RatValue ρ (e.replace x (ofNum n)) q := by
  induction h with
  | num k q hk => rw [replace_ofNum]; exact .num _ _ hk
  | var v =>
    rw [replace_ofVar]
    split_ifs with hv
    · subst hv; exact .num _ _ (hn ((occurs_ofVar v v).2 rfl))
    · exact .var v
  | neg _ i => rw [replace_neg]; exact .neg (i fun h => hn ((occurs_neg ..).2 h))
  | add _ _ i j =>
    rw [replace_add]
    exact .add (i fun h => hn ((occurs_add ..).2 (.inl h))) (j fun h => hn ((occurs_add ..).2 (.inr h)))
  | sub _ _ i j =>
    rw [replace_sub]
    exact .sub (i fun h => hn ((occurs_sub ..).2 (.inl h))) (j fun h => hn ((occurs_sub ..).2 (.inr h)))
  | mul _ _ i j =>
    rw [replace_mul]
    exact .mul (i fun h => hn ((occurs_mul ..).2 (.inl h))) (j fun h => hn ((occurs_mul ..).2 (.inr h)))
  | div _ _ h0 i j =>
    rw [replace_div]
    exact .div (i fun h => hn ((occurs_div ..).2 (.inl h))) (j fun h => hn ((occurs_div ..).2 (.inr h))) h0
end

theorem substituteAll_value {m : Mode} {ρ : Variable → ℚ} {bs : List (Variable × SmartNum F)} {e : Expr F} {q : ℚ}
    (he : Built m e) (hb : ∀ b ∈ bs, b.2.Reachable m) (h : RatValue ρ e q) (hc : Covers ρ bs e) :
    ∃ s, substituteAll e bs = .ok s ∧ Built m s ∧ ConstValue s (some q) := by
  induction bs generalizing e with
  | nil =>
    refine ⟨e, rfl, he, h.constValue fun v hv => ?_⟩
    obtain ⟨n, hn, -⟩ := hc v hv
    cases hn
  | cons b bs ih =>
    obtain ⟨x, n⟩ := b
    have hx : Occurs x e → n.exact? = some (ρ x) := by
      intro hx
      obtain ⟨k, h1, h2⟩ := hc x hx
      simp only [List.find?_cons, beq_self_eq_true, Option.some.injEq, Prod.mk.injEq, true_and] at h1
      rw [h1]; exact h2
    obtain ⟨s, h1, h2, h3⟩ := ih (e := e.replace x (ofNum n)) (WF.replace he (.num _ (hb (x, n) (by simp))) x)
      (fun b hb' => hb b (by simp [hb'])) (h.replace hx) (by
        intro v hv
        have hv' : Occurs v e ∧ v ≠ x := by
          rcases occurs_replace.1 hv with h | ⟨-, h⟩
          · exact h
          · simp at h
        obtain ⟨k, k1, k2⟩ := hc v hv'.1
        refine ⟨k, ?_, k2⟩
        have hne : (x.name == v.name) = false := by
          rw [beq_eq_false_iff_ne]
          intro hh
          exact hv'.2 (by cases x; cases v; simp_all)
        simpa [List.find?_cons, hne] using k1)
    exact ⟨s, by rw [substituteAll, substitute_eq]; exact h1, h2, h3⟩

/-- C61: in every build, giving numbers to all variables of an arithmetic expression succeeds, and simplifying the result,
if it returns, gives a single number that is not a float. -/
theorem C61_number (m : Mode) (ρ : Variable → ℚ) (e : Expr F) (q : ℚ) (he : Built m e)
    (bs : List (Variable × SmartNum F)) (hb : ∀ b ∈ bs, b.2.Reachable m) (h : RatValue ρ e q) (hc : Covers ρ bs e) :
    ∃ s, substituteAll e bs = .ok s ∧
      ∀ e', s.numAggregate m = .ok e' → ∃ n : SmartNum F, e' = ofNum n ∧ n.NonFloat := by
  obtain ⟨s, h1, h2, h3⟩ := substituteAll_value he hb h hc
  exact ⟨s, h1, fun e' h' => C25_folds_to_number m s e' _ h2 h3 h'⟩

/-- C61: if nothing wraps, that number is exactly the value of the expression. -/
theorem C61_evaluation (ρ : Variable → ℚ) (e : Expr F) (q : ℚ) (he : Built .strict e)
    (bs : List (Variable × SmartNum F)) (hb : ∀ b ∈ bs, b.2.Reachable .strict) (h : RatValue ρ e q)
    (hc : Covers ρ bs e) :
    ∃ s, substituteAll e bs = .ok s ∧
      ∀ e', s.numAggregate .strict = .ok e' → ∃ n : SmartNum F, e' = ofNum n ∧ n.exact? = some q := by
  obtain ⟨s, h1, h2, h3⟩ := substituteAll_value he hb h hc
  exact ⟨s, h1, fun e' h' => C25_folds_exactly s e' q h2 h3 h'⟩

/-- C61: an instance: (x + 1/2) * y / (x - y) at x = 3, y = 2 is 7. -/
theorem C61_example :
    let x : Expr Unit := newVariable "x"
    let y : Expr Unit := newVariable "y"
    let e := ((x.add ((ofI64 1).div (ofI64 2))).mul y).div (x.sub y)
    let bs : List (Variable × SmartNum Unit) := [(⟨"x"⟩, .ofI64 3), (⟨"y"⟩, .ofI64 2)]
    let ρ : Variable → ℚ := fun v => if v.name = "x" then 3 else 2
    Built .strict e ∧ (∀ b ∈ bs, b.2.Reachable .strict) ∧ RatValue ρ e 7 ∧ Covers ρ bs e ∧
    ∃ s n, substituteAll e bs = .ok s ∧ s.numAggregate .strict = .ok (ofNum n) ∧ n.exact? = some 7 := by
  intro x y e bs ρ
  have hb : ∀ v, Built (F := Unit) .strict (ofI64 v) := fun v => .num _ (.ofI64 v)
  have e1 : (SmartNum.ofI64 1 : SmartNum Unit).exact? = some 1 := rfl
  have e2 : (SmartNum.ofI64 2 : SmartNum Unit).exact? = some 2 := rfl
  have e3 : (SmartNum.ofI64 3 : SmartNum Unit).exact? = some 3 := rfl
  have he : Built .strict e :=
    .div _ _ (.mul _ _ (.add _ _ (.var _) (.div _ _ (hb _) (hb _))) (.var _)) (.sub _ _ (.var _) (.var _))
  have hr : ∀ b ∈ bs, b.2.Reachable .strict := by
    intro b hb
    simp only [bs, List.mem_cons, List.not_mem_nil, or_false] at hb
    rcases hb with rfl | rfl <;> exact .ofI64 _
  have hx : ρ ⟨"x"⟩ = 3 := by simp [ρ]
  have hy : ρ ⟨"y"⟩ = 2 := by simp [ρ]
  have hq : RatValue ρ e 7 := by
    have := RatValue.div (.mul (.add (.var ⟨"x"⟩) (.div (.num _ _ e1) (.num _ _ e2) (by norm_num))) (.var ⟨"y"⟩))
      (.sub (.var ⟨"x"⟩) (.var ⟨"y"⟩)) (by rw [hx, hy]; norm_num : ρ ⟨"x"⟩ - ρ ⟨"y"⟩ ≠ 0)
    rw [hx, hy] at this
    norm_num at this
    exact this
  have hc : Covers ρ bs e := by
    intro v hv
    have : v = ⟨"x"⟩ ∨ v = ⟨"y"⟩ := by
      have hxx : ∀ s : String, Occurs v (newVariable s : Expr Unit) → v = ⟨s⟩ := fun s h => ((occurs_ofVar v ⟨s⟩).1 h).symm
      have hi : ∀ k : Int64, ¬ Occurs v (ofI64 k : Expr Unit) := by intro k; simp [ofI64]
      simp only [e, occurs_div, occurs_mul, occurs_add, occurs_sub, hi, or_false] at hv
      rcases hv with (h | h) | h | h
      · exact .inl (hxx _ h)
      · exact .inr (hxx _ h)
      · exact .inl (hxx _ h)
      · exact .inr (hxx _ h)
    rcases this with rfl | rfl
    · exact ⟨_, rfl, by rw [hx]; exact e3⟩
    · exact ⟨.ofI64 2, by simp [bs], by rw [hy]; exact e2⟩
  refine ⟨he, hr, hq, hc, ?_⟩
  obtain ⟨s, h1, h2⟩ := C61_evaluation ρ e 7 he bs hr hq hc
  have key : (match substituteAll e bs with | .ok s => (s.numAggregate .strict).lift (ε := Unit) |>.isOk | _ => false) = true := by
    decide +kernel
  rw [h1] at key
  obtain ⟨e', he'⟩ : ∃ e', s.numAggregate .strict = .ok e' := by
    cases h' : s.numAggregate .strict with
    | ok e' => exact ⟨e', rfl⟩
    | panic => simp only [h'] at key; cases key
  obtain ⟨n, rfl, hn⟩ := h2 e' he'
  exact ⟨s, n, h1, he', hn⟩

end SymRust
