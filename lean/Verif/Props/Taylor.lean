import Verif.Proofs.Factorial
import Verif.Spec.Toy
/-! # Shape, bounds, prefixes and display of Taylor expansions (C33, C36, C37, C38) -/

namespace SymRust
variable {F : Type} [FloatOps F]
open Expr

theorem u64_lt (n : UInt64) : n.toNat + 1 ≤ 2 ^ 64 := by have := n.toNat_lt; omega

/-! ## C33 -/

/-- C33: a successful expansion of order `n` has `n+1` coefficients, echoes order, variable and point; its
residual is the `(n+1)`-fold derivative; coefficient `k` is the aggregate of the aggregate of the `k`-fold
derivative with `x` replaced by the point, divided by `k!` (the divisor is `k!` modulo 2^64, exactly `k!` in an
overflow-checking build). -/
theorem C33_shape (m : Mode) (e a : Expr F) (x : Variable) (n : UInt64) (t : PartialExpansion F)
    (h : e.taylorExpansion m x a n = .ok t) :
    t.coefficient.length = n.toNat + 1 ∧ t.order = n ∧ t.of = ofVar x ∧ t.at_ = a ∧
    nthDerivative m e x (n.toNat + 1) = .ok t.residual ∧
    ∀ k, k ≤ n.toNat → ∃ d s v c : Expr F, nthDerivative m e x k = .ok d ∧ d.substitute x a = .ok s ∧
      s.numAggregate m = .ok v ∧ (v.div (ofI64 (Int64.ofNat k.factorial))).numAggregate m = .ok c ∧
      t.coefficient[k]? = some c ∧ (m ≠ .release → (Int64.ofNat k.factorial).toInt = k.factorial) := by
  rw [taylorExpansion_state] at h
  obtain ⟨s, hs, h⟩ := Out.bind_eq_ok.mp h
  cases h
  obtain ⟨h1, h2, h3, h4, h5⟩ := taylorState_spec _ (u64_lt n) hs
  refine ⟨h1, rfl, rfl, rfl, h2, fun k hk => ?_⟩
  obtain ⟨d, u, c, g1, g2, g3, g4, g5⟩ := h5 k (by omega)
  refine ⟨d, _, u, c, g1, substitute_eq _ _ _, g2, g3, g4, fun hm => ?_⟩
  have := toInt_ofInt_of_inI64 (z := (k.factorial : Int)) (by have := g5 hm; unfold InI64; omega)
  exact_mod_cast this

/-- `sin x` at 0 to order 3, in a debug build -/
example : ∃ t, (newVariable "x" : Expr Unit).sin.taylorExpansion .debug ⟨"x"⟩ (ofI64 0) 3 = .ok t ∧
    t.coefficient = [ofI64 0, ofI64 1, ofI64 0, ofNum ⟨.rational ⟨-1, 1, 6⟩, .nothing⟩] :=
  ⟨_, rfl, by decide +kernel⟩

/-! ## C36 -/

/-- C36: an expansion of order 21 or more panics in an overflow-checking build, whatever the expression,
variable and point. -/
theorem C36_order_21_panics (e a : Expr F) (x : Variable) (n : UInt64) (he : Built .debug e)
    (ha : Built .debug a) (hn : 21 ≤ n.toNat) : e.taylorExpansion .debug x a n = .panic := by
  cases h : e.taylorExpansion .debug x a n with
  | panic => rfl
  | err err =>
    rw [taylorExpansion_state] at h
    cases hs : taylorState .debug e x a (n.toNat + 1) with
    | ok s => rw [hs] at h; cases h
    | panic => rw [hs] at h; cases h
    | err e' => exact absurd hs (taylorState_no_err ha.tree he.tree _ e')
  | ok t =>
    rw [taylorExpansion_state] at h
    obtain ⟨s, hs, h⟩ := Out.bind_eq_ok.mp h
    obtain ⟨-, -, -, h4, -⟩ := taylorState_spec _ (u64_lt n) hs
    have h5 := h4 (by simp)
    have h6 : Nat.factorial 21 ≤ (n.toNat + 1 - 1).factorial := Nat.factorial_le (by omega)
    have h7 : (9223372036854775807 : Nat) < Nat.factorial 21 := by decide
    omega

/-- C36: up to order 20 every factorial used as a divisor is exact. -/
theorem C36_exact_to_20 (m : Mode) (e a : Expr F) (x : Variable) (n : UInt64) (t : PartialExpansion F)
    (h : e.taylorExpansion m x a n = .ok t) (k : Nat) (hk : k ≤ n.toNat) (h20 : k ≤ 20) :
    ∃ (d s v c : Expr F) (f : Int64), f.toInt = k.factorial ∧ nthDerivative m e x k = .ok d ∧
      d.substitute x a = .ok s ∧ s.numAggregate m = .ok v ∧ (v.div (ofI64 f)).numAggregate m = .ok c ∧
      t.coefficient[k]? = some c := by
  obtain ⟨-, -, -, -, -, h⟩ := C33_shape m e a x n t h
  obtain ⟨d, s, v, c, g1, g2, g3, g4, g5, -⟩ := h k hk
  refine ⟨d, s, v, c, _, ?_, g1, g2, g3, g4, g5⟩
  have h6 : k.factorial ≤ Nat.factorial 20 := Nat.factorial_le h20
  have h7 : Nat.factorial 20 ≤ (9223372036854775807 : Nat) := by decide
  have := toInt_ofInt_of_inI64 (z := (k.factorial : Int)) (by unfold InI64; omega)
  exact_mod_cast this

/-- C36: order 20 is reached: the expansion of `exp x` at 0 of order 20 succeeds in a debug build. -/
theorem C36_order_20_succeeds : ∃ t, (newVariable "x" : Expr Unit).exp.taylorExpansion .debug ⟨"x"⟩ (ofI64 0) 20 = .ok t ∧
    t.coefficient[20]? = some (ofNum ⟨.rational ⟨1, 1, 2432902008176640000⟩, .nothing⟩) :=
  ⟨_, rfl, by decide +kernel⟩

/-! ## C37 -/

theorem taylorState_prefix {m : Mode} {e : Expr F} {x : Variable} {a : Expr F} (k j : Nat)
    {s : List (Expr F) × Expr F × SmartNum F} (h : taylorState m e x a (k + j) = .ok s) :
    ∃ s', taylorState m e x a k = .ok s' ∧ s'.1 <+: s.1 := by
  induction j generalizing s with
  | zero => exact ⟨s, h, List.prefix_refl _⟩
  | succ j ih =>
    rw [← Nat.add_assoc, taylorState] at h
    obtain ⟨u, h1, h⟩ := Out.bind_eq_ok.mp h
    obtain ⟨t, h2, h⟩ := Out.bind_eq_ok.mp h
    cases h
    obtain ⟨s', g1, g2⟩ := ih h1
    exact ⟨s', g1, g2.trans (List.prefix_append _ _)⟩

/-- C37: if an expansion of order `n` succeeds, so does every lower order, with the first coefficients. -/
theorem C37_prefix (m : Mode) (e a : Expr F) (x : Variable) (n n' : UInt64) (hn : n' ≤ n)
    (t : PartialExpansion F) (h : e.taylorExpansion m x a n = .ok t) :
    ∃ t', e.taylorExpansion m x a n' = .ok t' ∧ t'.coefficient = t.coefficient.take (n'.toNat + 1) := by
  have hl := (C33_shape m e a x n t h).1
  rw [taylorExpansion_state] at h
  obtain ⟨s, hs, h⟩ := Out.bind_eq_ok.mp h
  have hn' : n'.toNat ≤ n.toNat := UInt64.le_iff_toNat_le.mp hn
  rw [show n.toNat + 1 = (n'.toNat + 1) + (n.toNat - n'.toNat) by omega] at hs
  obtain ⟨s', g1, g2⟩ := taylorState_prefix _ _ hs
  cases h
  refine ⟨_, by rw [taylorExpansion_state, g1]; rfl, ?_⟩
  have hlen := (taylorState_spec _ (u64_lt n') g1).1
  rw [List.prefix_iff_eq_take, hlen] at g2
  exact g2

/-! ## C38 -/

/-- The text of one printed term. -/
def termText (b : Expr F) (t : Nat × Expr F) : Res String := do
  let c ← t.2.display
  let p ← (b.pow (ofI64 (Int64.ofNat t.1))).display
  return c ++ " * " ++ p ++ " + "

/-- All texts concatenated, in order. -/
def concatTexts : List (Res String) → Res String
  | [] => .ok ""
  | x :: xs => do return (← x) ++ (← concatTexts xs)

theorem displayTerms_eq (b : Expr F) (i : Nat) (cs : List (Expr F)) (content : String) :
    PartialExpansion.displayTerms b i cs content =
      (concatTexts ((((List.range' i cs.length).zip cs).filter fun t => !t.2.isZero).map (termText b))).bind
        fun s => .ok (content ++ s) := by
  induction cs generalizing i content with
  | nil => simp [PartialExpansion.displayTerms, concatTexts, Res.bind]
  | cons c cs ih =>
    rw [PartialExpansion.displayTerms, List.length_cons, List.range'_succ, List.zip_cons_cons]
    by_cases hz : c.isZero = true
    · rw [if_pos hz, List.filter_cons_of_neg (by simp [hz]), ih]
    · rw [if_neg hz, List.filter_cons_of_pos (by simp [hz]), List.map_cons, concatTexts, termText]
      cases c.display with
      | panic => rfl
      | ok t =>
        simp only [Res.ok_bind]
        cases (b.pow (ofI64 (Int64.ofNat i))).display with
        | panic => rfl
        | ok p =>
          simp only [Res.ok_bind, Res.pure_eq]
          rw [ih]
          cases concatTexts ((((List.range' (i + 1) cs.length).zip cs).filter fun t => !t.2.isZero).map (termText b)) with
          | panic => rfl
          | ok s => simp [Res.bind, String.append_assoc]

/-- C38: the display is the concatenation, in increasing order of the index, of the texts
`coefficient * (x - a)^index + ` of exactly the coefficients that are not the exact zero, followed by
`O((x - a)^(order+1))`, where `x - a` is aggregated. -/
theorem C38_display (m : Mode) (t : PartialExpansion F) (s : String) (h : t.display m = .ok s) :
    ∃ b terms n p, (t.of.sub t.at_).numAggregate m = .ok b ∧
      concatTexts ((shownTerms t.coefficient).map (termText b)) = .ok terms ∧
      (m ≠ .release → t.order.toNat + 1 < 18446744073709551616) ∧ SmartNum.ofU64 m (t.order + 1) = .ok n ∧
      (b.pow (ofNum n)).display = .ok p ∧ s = terms ++ "O(" ++ p ++ ")" := by
  unfold PartialExpansion.display at h
  simp only [Res.bind_eq_ok] at h
  obtain ⟨b, h1, c, h2, o, h3, q, h4, p, h5, h6⟩ := h
  rw [displayTerms_eq, ← List.range_eq_range'] at h2
  unfold Expr.ofU64 at h4
  obtain ⟨n, h4a, h4'⟩ := Res.bind_eq_ok.mp h4
  cases h4'
  obtain ⟨terms, h7, h8⟩ := Res.bind_eq_ok.mp h2
  cases h8; cases h6
  have ho : o = t.order + 1 := checked_ok h3
  subst ho
  refine ⟨b, terms, n, p, h1, h7, fun hm => ?_, h4a, h5, by simp [String.append_assoc]⟩
  have h3 := checked_ok_fits hm h3
  unfold InU64 at h3
  have h1 : (1 : UInt64).toNat = 1 := rfl
  omega

theorem concatTexts_total {l : List (Res String)} (h : ∀ r ∈ l, ∃ s, r = .ok s) : ∃ s, concatTexts l = .ok s := by
  induction l with
  | nil => exact ⟨_, rfl⟩
  | cons r l ih =>
    obtain ⟨s, rfl⟩ := h r (by simp)
    obtain ⟨t, ht⟩ := ih fun r hr => h r (by simp [hr])
    exact ⟨s ++ t, by simp [concatTexts, ht]⟩

/-- C38: displaying an expansion returned by `taylor_expansion` never panics in a release build, and in a
debug build only if the order is `u64::MAX` or aggregating the point overflows. -/
theorem C38_total (m : Mode) (hm : m ≠ .strict) (e a : Expr F) (x : Variable) (n : UInt64) (t : PartialExpansion F)
    (he : Built m e) (ha : Built m a) (h : e.taylorExpansion m x a n = .ok t) :
    (m = .release → ∃ s, t.display m = .ok s) ∧
    (n.toNat < 18446744073709551615 → (∃ b, a.numAggregate m = .ok b) → ∃ s, t.display m = .ok s) := by
  rw [taylorExpansion_state] at h
  obtain ⟨s, hs, h⟩ := Out.bind_eq_ok.mp h
  obtain ⟨w1, -, -⟩ := taylorState_wf (numClosed_true m) (fun _ _ _ => trivial) ha.tree he.tree _ hs
  have key : ∀ (b : Expr F) (o : UInt64), Tree b → ((ofVar x).sub a).numAggregate m = .ok b →
      u64Add m n 1 = .ok o → ∃ s, t.display m = .ok s := by
    intro b o tb hb ho
    have tp : ∀ y, Tree (b.pow (ofNum y)) := fun y => .pow _ _ tb (.num _ trivial)
    obtain ⟨u, hu⟩ : ∃ u, SmartNum.ofU64 (F := F) m o = .ok u := by
      cases m with
      | strict => exact absurd rfl hm
      | debug => exact ⟨_, rfl⟩
      | release => exact ⟨_, rfl⟩
    obtain ⟨p, hp⟩ := toStringRaw_total (tp u) 0
    obtain ⟨c, hc⟩ : ∃ c, concatTexts ((shownTerms s.1).map (termText b)) = .ok c := by
      refine concatTexts_total fun r hr => ?_
      obtain ⟨q, hq, rfl⟩ := List.mem_map.mp hr
      have hq1 : q.2 ∈ s.1 := (List.of_mem_zip (List.mem_filter.mp hq).1).2
      obtain ⟨t1, ht1⟩ := toStringRaw_total (w1 _ hq1) 0
      obtain ⟨t2, ht2⟩ := toStringRaw_total (tp (SmartNum.ofI64 (Int64.ofNat q.1))) 0
      refine ⟨t1 ++ " * " ++ t2 ++ " + ", ?_⟩
      unfold termText Expr.display
      rw [ht1, Res.ok_bind, show ofI64 (Int64.ofNat q.1) = ofNum (F := F) (SmartNum.ofI64 (Int64.ofNat q.1)) from rfl, ht2]; rfl
    cases h
    unfold PartialExpansion.display
    simp only
    rw [hb, Res.ok_bind, displayTerms_eq, ← List.range_eq_range']
    unfold shownTerms at hc
    rw [hc]
    refine ⟨"" ++ c ++ ("O(" ++ p ++ ")"), ?_⟩
    simp only [Res.bind, Res.ok_bind, ho, Expr.ofU64, hu, Res.pure_eq]
    unfold Expr.display
    rw [hp]; rfl
  have key2 : (∃ b, a.numAggregate m = .ok b) → ∃ b : Expr F, Tree b ∧ ((ofVar x).sub a).numAggregate m = .ok b := by
    rintro ⟨b, hb⟩
    rw [numAggregate_sub, numAggregate_ofVar, hb]
    have hex : ∃ r, subEvalRule m [.ok (ofVar x), .ok b] = .ok r := by
      unfold subEvalRule; simp only [pop_one, pop_two, Res.ok_bind]
      rw [if_neg (by simp [ofVar, newVariable, isNum, root, AstOperand.isNum])]
      split_ifs <;> exact ⟨_, rfl⟩
    obtain ⟨r, hr⟩ := hex
    refine ⟨r, ?_, hr⟩
    have : ((ofVar x).sub a).numAggregate m = .ok r := by
      rw [numAggregate_sub, numAggregate_ofVar, hb]; exact hr
    exact tree_numAggregate (.sub _ _ (.var x) ha.tree) this
  constructor
  · rintro rfl
    obtain ⟨b, tb, hb⟩ := key2 (numAggregate_release ha.tree)
    exact key b (n + 1) tb hb (checked_release _)
  · intro hn hb
    obtain ⟨b, tb, hb⟩ := key2 hb
    refine key b (n + 1) tb hb (checked_of_fits m _ ?_)
    change n.toNat + 1 ≤ _; omega

/-- the expansion of `sin` above prints as expected -/
example : ∃ t, (newVariable "x" : Expr Unit).sin.taylorExpansion .debug ⟨"x"⟩ (ofI64 0) 3 = .ok t ∧
    t.display .debug = .ok "1 * x ^ 1 + -1/6 * x ^ 3 + O(x ^ 4)" := ⟨_, rfl, by decide +kernel⟩

end SymRust
