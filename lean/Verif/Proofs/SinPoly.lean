import Verif.Spec.SinPoly
import Verif.Proofs.PosPoly
import Mathlib.Analysis.SpecialFunctions.Trigonometric.Sinc
/-! Positive polynomials with sines: one derivative brings cosines, a second brings minus signs. -/

namespace SymRust
variable {F : Type} [FloatOps F] {x : Variable}
open Expr

/-- Order of vanishing `i` and level `s`: 0 = polynomial, 1 = sines, 2 = cosines. -/
inductive TrigPoly (x : Variable) : ℕ → ℕ → Expr F → Prop
  | num (n : SmartNum F) (q : ℚ) : n.exact? = some q → 0 < q → TrigPoly x 0 0 (ofNum n)
  | self : TrigPoly x 1 0 (ofVar x)
  | other (v : Variable) : x ≠ v → TrigPoly x 0 0 (ofVar v)
  | add {i j s t : ℕ} {a b : Expr F} : TrigPoly x i s a → TrigPoly x j t b → TrigPoly x (min i j) (max s t) (a.add b)
  | mul {i j s t : ℕ} {a b : Expr F} : TrigPoly x i s a → TrigPoly x j t b → TrigPoly x (i + j) (max s t) (a.mul b)
  | sin {i s : ℕ} {a : Expr F} : TrigPoly x i s a → s ≤ 1 → 0 < i → TrigPoly x i 1 a.sin
  | cos {i s : ℕ} {a : Expr F} : TrigPoly x i s a → s ≤ 1 → 0 < i → TrigPoly x 0 2 a.cos

omit [FloatOps F] in
theorem TrigPoly.le_two {i s : ℕ} {e : Expr F} (h : TrigPoly x i s e) : s ≤ 2 := by
  induction h <;> omega

omit [FloatOps F] in
theorem SinPoly.trig {i : ℕ} {e : Expr F} (h : SinPoly x i e) : ∃ s ≤ 1, TrigPoly x i s e := by
  induction h with
  | num n q h1 h2 => exact ⟨0, by omega, .num n q h1 h2⟩
  | self => exact ⟨0, by omega, .self⟩
  | other v hv => exact ⟨0, by omega, .other v hv⟩
  | add _ _ i j =>
    obtain ⟨s, hs, h1⟩ := i
    obtain ⟨t, ht, h2⟩ := j
    exact ⟨max s t, by omega, h1.add h2⟩
  | mul _ _ i j =>
    obtain ⟨s, hs, h1⟩ := i
    obtain ⟨t, ht, h2⟩ := j
    exact ⟨max s t, by omega, h1.mul h2⟩
  | sin _ hi ih =>
    obtain ⟨s, hs, h1⟩ := ih
    exact ⟨1, le_rfl, h1.sin hs hi⟩

omit [FloatOps F] in
theorem TrigPoly.poly {i : ℕ} {e : Expr F} {s : ℕ} (h : TrigPoly x i s e) (hs : s = 0) : PosPoly x i e := by
  induction h with
  | num n q h1 h2 => exact .num n q h1 h2
  | self => exact .self
  | other v hv => exact .other v hv
  | add _ _ i j => exact .add (i (by omega)) (j (by omega))
  | mul _ _ i j => exact .mul (i (by omega)) (j (by omega))
  | _ => omega

omit [FloatOps F] in
theorem PosPoly.trig {i : ℕ} {e : Expr F} (h : PosPoly x i e) : TrigPoly x i 0 e := by
  induction h with
  | num n q h1 h2 => exact .num n q h1 h2
  | self => exact .self
  | other v hv => exact .other v hv
  | add _ _ i j => exact i.add j
  | mul _ _ i j => exact i.mul j

omit [FloatOps F] in
theorem trigPoly_num {i s : ℕ} {n : SmartNum F} (h : TrigPoly x i s (ofNum n)) :
    i = 0 ∧ s = 0 ∧ ∃ q, n.exact? = some q ∧ 0 < q := by
  generalize he : (ofNum n : Expr F) = e at h
  cases h with
  | num n' q h1 h2 => expr_inj at he; subst he; exact ⟨rfl, rfl, q, h1, h2⟩
  | _ => expr_inj at he

/-- Of order `n` and level `s`, or (`n = ⊤`) a number that is 0. -/
def CleanT (x : Variable) (n : ℕ∞) (s : ℕ) (e : Expr F) : Prop :=
  (n = ⊤ ∧ s = 0 ∧ ∃ k : SmartNum F, e = ofNum k ∧ k.isZero = true) ∨ ∃ i : ℕ, n = i ∧ TrigPoly x i s e

theorem cleanT_num {i : ℕ∞} {s : ℕ} {n : SmartNum F} (hn : n.Valid) (h : CleanT x i s (ofNum n)) : s = 0 ∧
    ((i = ⊤ ∧ n.isZero = true ∧ n.exact? = some 0) ∨ (i = 0 ∧ n.isZero = false ∧ ∃ q, n.exact? = some q ∧ 0 < q)) := by
  rcases h with ⟨rfl, rfl, k, hk, h0⟩ | ⟨i, rfl, h⟩
  · expr_inj at hk; subst hk; exact ⟨rfl, .inl ⟨rfl, h0, hn.zero_iff.1 h0⟩⟩
  · obtain ⟨rfl, rfl, q, h1, h2⟩ := trigPoly_num h
    refine ⟨rfl, .inr ⟨rfl, ?_, q, h1, h2⟩⟩
    cases h0 : n.isZero with
    | false => rfl
    | true => rw [hn.zero_iff.1 h0] at h1; cases h1; exact absurd h2 (lt_irrefl _)

theorem cleanT_ofI64_zero : CleanT x ⊤ 0 (ofI64 0 : Expr F) := .inl ⟨rfl, rfl, _, rfl, rfl⟩

omit [FloatOps F] in
theorem cleanT_of_exact {n : SmartNum F} {q : ℚ} (h : n.exact? = some q) (hq : 0 < q) : CleanT x 0 0 (ofNum n) :=
  .inr ⟨0, rfl, .num n q h hq⟩

theorem cleanT_zero_of_exact {n : SmartNum F} (hn : n.Valid) (h : n.exact? = some 0) : CleanT x ⊤ 0 (ofNum n) :=
  .inl ⟨rfl, rfl, n, rfl, hn.zero_iff.2 h⟩

omit [FloatOps F] in
theorem CleanT.pos {i : ℕ∞} {s : ℕ} {e : Expr F} (h : CleanT x i s e) (h0 : e.isZero = false) :
    ∃ j : ℕ, i = j ∧ TrigPoly x j s e := by
  rcases h with ⟨rfl, -, k, rfl, hz⟩ | h
  · rw [isZero_ofNum, hz] at h0; cases h0
  · exact h

omit [FloatOps F] in
theorem CleanT.pos_of_not_num {i : ℕ∞} {s : ℕ} {e : Expr F} (h : CleanT x i s e) (h0 : e.isNum = false) :
    ∃ j : ℕ, i = j ∧ TrigPoly x j s e := by
  rcases h with ⟨rfl, -, k, rfl, hz⟩ | h
  · cases h0
  · exact h

omit [FloatOps F] in
theorem CleanT.le_two {i : ℕ∞} {s : ℕ} {e : Expr F} (h : CleanT x i s e) : s ≤ 2 := by
  rcases h with ⟨-, rfl, -⟩ | ⟨_, -, h⟩
  · omega
  · exact h.le_two

theorem agg_add_cleanT {i j : ℕ∞} {s t : ℕ} {a b e : Expr F} (h : Agg .strict (a.add b) e) (va : WF SmartNum.Valid a)
    (vb : WF SmartNum.Valid b) (ha : ∀ a', Agg .strict a a' → CleanT x i s a') (hb : ∀ b', Agg .strict b b' → CleanT x j t b') :
    CleanT x (min i j) (max s t) e := by
  have wf : ∀ {a a' : Expr F}, WF SmartNum.Valid a → Agg .strict a a' → WF SmartNum.Valid a' :=
    fun v h => h.wf (numClosed_valid _) v
  generalize he : a.add b = e₀ at h
  cases h with
  | @add_num a b u v w h1 h2 h3 =>
    expr_inj at he; obtain ⟨rfl, rfl⟩ := he
    have vu := WF.num_iff.1 (wf va h1)
    have vv := WF.num_iff.1 (wf vb h2)
    have vw : w.Valid := (numClosed_valid _).add _ _ _ vu vv h3
    rcases cleanT_num vu (ha _ h1) with ⟨rfl, ⟨rfl, _, e1⟩ | ⟨rfl, _, p, e1, hp⟩⟩ <;>
      rcases cleanT_num vv (hb _ h2) with ⟨rfl, ⟨rfl, _, e2⟩ | ⟨rfl, _, q, e2, hq⟩⟩
    · simpa using cleanT_zero_of_exact vw (by simpa using SmartNum.add_exact vu vv e1 e2 h3)
    · simpa using cleanT_of_exact (by simpa using SmartNum.add_exact vu vv e1 e2 h3) hq
    · simpa using cleanT_of_exact (by simpa using SmartNum.add_exact vu vv e1 e2 h3) hp
    · simpa using cleanT_of_exact (SmartNum.add_exact vu vv e1 e2 h3) (add_pos hp hq)
  | add_zero_l h1 h2 h3 =>
    expr_inj at he; obtain ⟨rfl, rfl⟩ := he
    rcases cleanT_num (WF.num_iff.1 (wf va h1)) (ha _ h1) with ⟨rfl, ⟨rfl, _, e1⟩ | ⟨rfl, h0, _⟩⟩
    · simpa using hb _ h2
    · rw [h3] at h0; cases h0
  | add_zero_r h1 h2 h3 =>
    expr_inj at he; obtain ⟨rfl, rfl⟩ := he
    rcases cleanT_num (WF.num_iff.1 (wf vb h2)) (hb _ h2) with ⟨rfl, ⟨rfl, _, e1⟩ | ⟨rfl, h0, _⟩⟩
    · simpa using ha _ h1
    · rw [h3] at h0; cases h0
  | add h1 h2 _ h3 h4 =>
    expr_inj at he; obtain ⟨rfl, rfl⟩ := he
    obtain ⟨i, rfl, k1⟩ := (ha _ h1).pos h3
    obtain ⟨j, rfl, k2⟩ := (hb _ h2).pos h4
    exact .inr ⟨min i j, (Nat.mono_cast.map_min).symm, .add k1 k2⟩
  | _ => expr_inj at he

theorem agg_mul_cleanT {i j : ℕ∞} {s t : ℕ} {a b e : Expr F} (h : Agg .strict (a.mul b) e) (va : WF SmartNum.Valid a)
    (vb : WF SmartNum.Valid b) (ha : ∀ a', Agg .strict a a' → CleanT x i s a') (hb : ∀ b', Agg .strict b b' → CleanT x j t b') :
    CleanT x (i + j) (if i + j = ⊤ then 0 else max s t) e := by
  have wf : ∀ {a a' : Expr F}, WF SmartNum.Valid a → Agg .strict a a' → WF SmartNum.Valid a' :=
    fun v h => h.wf (numClosed_valid _) v
  generalize he : a.mul b = e₀ at h
  cases h with
  | @mul_num a b u v w h1 h2 h3 =>
    expr_inj at he; obtain ⟨rfl, rfl⟩ := he
    have vu := WF.num_iff.1 (wf va h1)
    have vv := WF.num_iff.1 (wf vb h2)
    have vw : w.Valid := (numClosed_valid _).mul _ _ _ vu vv h3
    have ex := fun {p q : ℚ} (e1 : u.exact? = some p) (e2 : v.exact? = some q) =>
      SmartNum.mul_exact (m := .strict) (by simp) vu vv e1 e2 h3
    rcases cleanT_num vu (ha _ h1) with ⟨rfl, ⟨rfl, _, e1⟩ | ⟨rfl, _, p, e1, hp⟩⟩ <;>
      rcases cleanT_num vv (hb _ h2) with ⟨rfl, ⟨rfl, _, e2⟩ | ⟨rfl, _, q, e2, hq⟩⟩
    · simpa using cleanT_zero_of_exact vw (by simpa using ex e1 e2)
    · simpa using cleanT_zero_of_exact vw (by simpa using ex e1 e2)
    · simpa using cleanT_zero_of_exact vw (by simpa using ex e1 e2)
    · simpa using cleanT_of_exact (ex e1 e2) (mul_pos hp hq)
  | mul_zero_l h1 h2 h3 =>
    expr_inj at he; obtain ⟨rfl, rfl⟩ := he
    rcases cleanT_num (WF.num_iff.1 (wf va h1)) (ha _ h1) with ⟨rfl, ⟨rfl, _, e1⟩ | ⟨rfl, h0, _⟩⟩
    · simpa using cleanT_ofI64_zero
    · rw [h3] at h0; cases h0
  | mul_zero_r h1 h2 h3 =>
    expr_inj at he; obtain ⟨rfl, rfl⟩ := he
    rcases cleanT_num (WF.num_iff.1 (wf vb h2)) (hb _ h2) with ⟨rfl, ⟨rfl, _, e1⟩ | ⟨rfl, h0, _⟩⟩
    · simpa using cleanT_ofI64_zero
    · rw [h3] at h0; cases h0
  | mul_one_l h1 h2 h3 h4 =>
    expr_inj at he; obtain ⟨rfl, rfl⟩ := he
    rcases cleanT_num (WF.num_iff.1 (wf va h1)) (ha _ h1) with ⟨rfl, ⟨rfl, h0, e1⟩ | ⟨rfl, h0, _⟩⟩
    · exact ((WF.num_iff.1 (wf va h1)).not_zero_one h0 h3).elim
    · obtain ⟨j, rfl, k2⟩ := (hb _ h2).pos_of_not_num h4
      simpa using hb _ h2
  | mul_one_r h1 h2 h3 h4 =>
    expr_inj at he; obtain ⟨rfl, rfl⟩ := he
    rcases cleanT_num (WF.num_iff.1 (wf vb h2)) (hb _ h2) with ⟨rfl, ⟨rfl, h0, e1⟩ | ⟨rfl, h0, _⟩⟩
    · exact ((WF.num_iff.1 (wf vb h2)).not_zero_one h0 h3).elim
    · obtain ⟨j, rfl, k2⟩ := (ha _ h1).pos_of_not_num h4
      simpa using ha _ h1
  | mul h1 h2 _ h3 h4 =>
    expr_inj at he; obtain ⟨rfl, rfl⟩ := he
    obtain ⟨i, rfl, k1⟩ := (ha _ h1).pos h3
    obtain ⟨j, rfl, k2⟩ := (hb _ h2).pos h4
    refine .inr ⟨i + j, by simp, ?_⟩
    rw [if_neg (by rw [← Nat.cast_add]; exact ENat.natCast_ne_top _)]
    exact .mul k1 k2
  | _ => expr_inj at he

omit [FloatOps F] in
theorem TrigPoly.isNum {i s : ℕ} {e : Expr F} (h : TrigPoly x i s e) (hi : 0 < i) : e.isNum = false := by
  cases h with
  | num => omega
  | _ => rfl

/-- `num_aggregate` keeps order and level. -/
theorem TrigPoly.agg_clean {i s : ℕ} {e : Expr F} (he : WF SmartNum.Valid e) (h : TrigPoly x i s e) :
    ∀ e', Agg .strict e e' → CleanT x i s e' := by
  have arg : ∀ {i s : ℕ} {a a' : Expr F}, CleanT x i s a' → (0 < i) → TrigPoly x i s a' ∧ a'.isNum = false := by
    intro i s a a' h hi
    rcases h with ⟨h, -⟩ | ⟨j, h, hp⟩
    · exact absurd h (ENat.natCast_ne_top _)
    · obtain rfl : i = j := by exact_mod_cast h
      exact ⟨hp, hp.isNum hi⟩
  induction h with
  | num n q h1 h2 =>
    intro e' h
    obtain rfl := h.unique (.num _ trivial) (.num n)
    exact .inr ⟨0, rfl, .num n q h1 h2⟩
  | self =>
    intro e' h
    obtain rfl := h.unique (.var _) (.var x)
    exact .inr ⟨1, rfl, .self⟩
  | other v hv =>
    intro e' h
    obtain rfl := h.unique (.var _) (.var v)
    exact .inr ⟨0, rfl, .other v hv⟩
  | add _ _ i j =>
    intro e' h
    have := WF.add_iff.1 he
    rw [Nat.mono_cast.map_min]
    exact agg_add_cleanT h this.1 this.2 (i this.1) (j this.2)
  | @mul i j s t a b _ _ ia ib =>
    intro e' h
    have := WF.mul_iff.1 he
    have := agg_mul_cleanT h this.1 this.2 (ia this.1) (ib this.2)
    rwa [if_neg (by rw [← Nat.cast_add]; exact ENat.natCast_ne_top _), ← Nat.cast_add] at this
  | @sin i s a ha hs hi ih =>
    intro e' h
    generalize he' : a.sin = e₀ at h
    cases h with
    | sin_num h1 h2 =>
      expr_inj at he'; subst he'
      have := (arg (a := a) (ih (WF.sin_iff.1 he) _ h1) hi).2
      cases this
    | sin h1 h2 h3 =>
      expr_inj at he'; subst he'
      exact .inr ⟨i, rfl, ((arg (a := a) (ih (WF.sin_iff.1 he) _ h1) hi).1).sin hs hi⟩
    | _ => expr_inj at he'
  | @cos i s a ha hs hi ih =>
    intro e' h
    generalize he' : a.cos = e₀ at h
    cases h with
    | cos_num h1 h2 =>
      expr_inj at he'; subst he'
      have := (arg (a := a) (ih (WF.cos_iff.1 he) _ h1) hi).2
      cases this
    | cos h1 h2 h3 =>
      expr_inj at he'; subst he'
      exact .inr ⟨0, rfl, ((arg (a := a) (ih (WF.cos_iff.1 he) _ h1) hi).1).cos hs hi⟩
    | _ => expr_inj at he'

theorem TrigPoly.agg {i s : ℕ} {e e' : Expr F} (he : WF SmartNum.Valid e) (h : TrigPoly x i s e) (ha : Agg .strict e e') :
    TrigPoly x i s e' := by
  rcases h.agg_clean he e' ha with ⟨h, -⟩ | ⟨j, h, hp⟩
  · exact absurd h (by simp)
  · have : i = j := by exact_mod_cast h
    subst this; exact hp

theorem CleanT.agg {i : ℕ∞} {s : ℕ} {e e' : Expr F} (he : WF SmartNum.Valid e) (h : CleanT x i s e) (ha : Agg .strict e e') :
    CleanT x i s e' := by
  rcases h with ⟨rfl, rfl, k, rfl, hk⟩ | ⟨j, rfl, hp⟩
  · obtain rfl := ha.unique (.num _ trivial) (.num k)
    exact .inl ⟨rfl, rfl, k, rfl, hk⟩
  · exact hp.agg_clean he _ ha

/-- `derivative` lowers the order by one and turns sines into cosines. -/
theorem TrigPoly.der {i s : ℕ} {e d : Expr F} (he : WF SmartNum.Valid e) (h : TrigPoly x i s e) (hs : s ≤ 1)
    (hd : Der .strict x e d) :
    ∃ (j : ℕ∞) (t : ℕ), CleanT x j t d ∧ (1 ≤ i → j = ((i - 1 : ℕ) : ℕ∞)) ∧ (s = 1 → j ≠ ⊤ ∧ t = 2) := by
  have wf : ∀ {a a' : Expr F}, WF SmartNum.Valid a → Der .strict x a a' → WF SmartNum.Valid a' :=
    fun v h => h.wf (numClosed_valid _) v
  induction h generalizing d with
  | num n q h1 h2 =>
    generalize hs : (ofNum n : Expr F) = s at hd
    cases hd with
    | num => exact ⟨⊤, 0, cleanT_ofI64_zero, by omega, by omega⟩
    | _ => expr_inj at hs
  | self =>
    generalize hs : (ofVar x : Expr F) = s at hd
    cases hd with
    | var => exact ⟨0, 0, cleanT_of_exact (q := 1) (by rfl) one_pos, fun _ => rfl, by omega⟩
    | var_ne y hy => expr_inj at hs; exact absurd (congrArg Variable.mk hs) hy
    | _ => expr_inj at hs
  | other v hv =>
    generalize hs : (ofVar v : Expr F) = s at hd
    cases hd with
    | var => expr_inj at hs; exact absurd (congrArg Variable.mk hs.symm) hv
    | var_ne y hy => exact ⟨⊤, 0, cleanT_ofI64_zero, by omega, by omega⟩
    | _ => expr_inj at hs
  | @add p q s t a b ha hb iha ihb =>
    generalize hs' : a.add b = s at hd
    cases hd with
    | add h1 h2 h3 =>
      expr_inj at hs'; obtain ⟨rfl, rfl⟩ := hs'
      have hw := WF.add_iff.1 he
      obtain ⟨i', s', c1, k1, l1⟩ := iha hw.1 (by omega) h1
      obtain ⟨j', t', c2, k2, l2⟩ := ihb hw.2 (by omega) h2
      have b1 := c1.le_two
      have b2 := c2.le_two
      refine ⟨min i' j', max s' t', agg_add_cleanT h3 (wf hw.1 h1) (wf hw.2 h2) (fun _ h => c1.agg (wf hw.1 h1) h)
        (fun _ h => c2.agg (wf hw.2 h2) h), fun h => ?_, fun h => ?_⟩
      · rw [k1 (by omega), k2 (by omega), ← Nat.mono_cast.map_min]
        congr 1
        omega
      · rcases (by omega : s = 1 ∨ t = 1) with h | h
        · obtain ⟨g1, g2⟩ := l1 h
          exact ⟨fun h => g1 (min_eq_top.1 h).1, by omega⟩
        · obtain ⟨g1, g2⟩ := l2 h
          exact ⟨fun h => g1 (min_eq_top.1 h).2, by omega⟩
    | _ => expr_inj at hs'
  | @mul p q s t a b ha hb iha ihb =>
    generalize hs' : a.mul b = s at hd
    cases hd with
    | @mul _ _ a' b' _ h1 h2 h3 =>
      expr_inj at hs'; obtain ⟨rfl, rfl⟩ := hs'
      have hw := WF.mul_iff.1 he
      obtain ⟨i', s', c1, k1, l1⟩ := iha hw.1 (by omega) h1
      obtain ⟨j', t', c2, k2, l2⟩ := ihb hw.2 (by omega) h2
      have b1 := c1.le_two
      have b2 := c2.le_two
      have w1 := wf hw.1 h1
      have w2 := wf hw.2 h2
      refine ⟨min (i' + q) (p + j'), _, agg_add_cleanT h3 (.mul _ _ w1 hw.2) (.mul _ _ hw.1 w2)
        (fun _ h => agg_mul_cleanT h w1 hw.2 (fun _ h => c1.agg w1 h) (hb.agg_clean hw.2))
        (fun _ h => agg_mul_cleanT h hw.1 w2 (ha.agg_clean hw.1) (fun _ h => c2.agg w2 h)), fun h => ?_, fun h => ?_⟩
      · rcases Nat.eq_zero_or_pos p with rfl | hp
        · rw [k2 (by omega)]
          have : ((q - 1 : ℕ) : ℕ∞) ≤ i' + q := le_add_left (by exact_mod_cast Nat.sub_le q 1)
          simpa using this
        · rcases Nat.eq_zero_or_pos q with rfl | hq
          · rw [k1 (by omega)]
            have : ((p - 1 : ℕ) : ℕ∞) ≤ p + j' := le_add_right (by exact_mod_cast Nat.sub_le p 1)
            simpa using this
          · rw [k1 hp, k2 hq, ← Nat.cast_add, ← Nat.cast_add, ← Nat.mono_cast.map_min]
            congr 1
            omega
      · have ft : ∀ {a : ℕ∞} {n : ℕ}, a ≠ ⊤ → a + n ≠ ⊤ := by
          intro a n ha h
          rcases WithTop.add_eq_top.1 h with h | h
          · exact ha h
          · exact ENat.natCast_ne_top _ h
        rcases (by omega : s = 1 ∨ t = 1) with h | h
        · obtain ⟨g1, g2⟩ := l1 h
          refine ⟨fun h => ft (n := q) g1 (min_eq_top.1 h).1, ?_⟩
          rw [if_neg (ft g1)]
          split_ifs <;> omega
        · obtain ⟨g1, g2⟩ := l2 h
          refine ⟨fun h => ft (n := p) g1 (by rw [add_comm]; exact (min_eq_top.1 h).2), ?_⟩
          rw [if_neg (c := (p : ℕ∞) + j' = ⊤) (by rw [add_comm]; exact ft g1)]
          split_ifs <;> omega
    | _ => expr_inj at hs'
  | @sin i s a ha hs1 hi ih =>
    generalize hs' : a.sin = s at hd
    cases hd with
    | @sin _ a' _ h1 h2 =>
      expr_inj at hs'; subst hs'
      have hw := WF.sin_iff.1 he
      have w1 := wf hw h1
      obtain ⟨i', s', c1, k1, -⟩ := ih hw hs1 h1
      have b1 := c1.le_two
      have := agg_mul_cleanT (x := x) h2 (.cos _ hw) w1 ((ha.cos hs1 hi).agg_clean (.cos _ hw)) (fun _ h => c1.agg w1 h)
      rw [k1 hi] at this
      have nt : ((0 : ℕ) : ℕ∞) + ((i - 1 : ℕ) : ℕ∞) ≠ ⊤ := by rw [← Nat.cast_add]; exact ENat.natCast_ne_top _
      rw [if_neg nt] at this
      exact ⟨_, _, this, fun _ => by simp, fun _ => ⟨nt, by omega⟩⟩
    | _ => expr_inj at hs'
  | cos => omega

/-! ### minus signs -/

/-- Outside `sin` and `cos`: numbers, variables, minus, sums, products. -/
inductive PlainForm : Expr F → Prop
  | num (n : SmartNum F) : PlainForm (ofNum n)
  | var (v : Variable) : PlainForm (ofVar v)
  | sin (a : Expr F) : PlainForm a.sin
  | cos (a : Expr F) : PlainForm a.cos
  | neg {a : Expr F} : PlainForm a → PlainForm a.neg
  | add {a b : Expr F} : PlainForm a → PlainForm b → PlainForm (a.add b)
  | mul {a b : Expr F} : PlainForm a → PlainForm b → PlainForm (a.mul b)

omit [FloatOps F] in
theorem PlainForm.of_neg {a : Expr F} (h : PlainForm a.neg) : PlainForm a := by
  generalize hs : a.neg = e at h
  cases h with
  | neg h => expr_inj at hs; subst hs; exact h
  | _ => expr_inj at hs

theorem PlainForm.agg {m : Mode} {e e' : Expr F} (h : PlainForm e) (ha : Agg m e e') : PlainForm e' := by
  induction h generalizing e' with
  | num n => obtain rfl := ha.unique (.num _ trivial) (.num n); exact .num n
  | var v => obtain rfl := ha.unique (.var _) (.var v); exact .var v
  | sin a =>
    generalize he : a.sin = e at ha
    cases ha with
    | sin_num => exact .num _
    | sin => exact .sin _
    | _ => expr_inj at he
  | cos a =>
    generalize he : a.cos = e at ha
    cases ha with
    | cos_num => exact .num _
    | cos => exact .cos _
    | _ => expr_inj at he
  | @neg a _ ih =>
    generalize he : a.neg = e at ha
    cases ha with
    | neg_num => exact .num _
    | neg_neg h => expr_inj at he; subst he; exact (ih h).of_neg
    | neg h => expr_inj at he; subst he; exact .neg (ih h)
    | _ => expr_inj at he
  | @add a b _ _ i j =>
    generalize he : a.add b = e at ha
    cases ha with
    | add_num => exact .num _
    | add_zero_l h1 h2 => expr_inj at he; obtain ⟨rfl, rfl⟩ := he; exact j h2
    | add_zero_r h1 h2 => expr_inj at he; obtain ⟨rfl, rfl⟩ := he; exact i h1
    | add h1 h2 => expr_inj at he; obtain ⟨rfl, rfl⟩ := he; exact .add (i h1) (j h2)
    | _ => expr_inj at he
  | @mul a b _ _ i j =>
    generalize he : a.mul b = e at ha
    cases ha with
    | mul_num => exact .num _
    | mul_zero_l h1 h2 => exact .num _
    | mul_zero_r h1 h2 => exact .num _
    | mul_one_l h1 h2 => expr_inj at he; obtain ⟨rfl, rfl⟩ := he; exact j h2
    | mul_one_r h1 h2 => expr_inj at he; obtain ⟨rfl, rfl⟩ := he; exact i h1
    | mul h1 h2 => expr_inj at he; obtain ⟨rfl, rfl⟩ := he; exact .mul (i h1) (j h2)
    | _ => expr_inj at he

omit [FloatOps F] in
theorem TrigPoly.plain {i s : ℕ} {e : Expr F} (h : TrigPoly x i s e) : PlainForm e := by
  induction h with
  | num n => exact .num n
  | self => exact .var _
  | other v => exact .var v
  | add _ _ i j => exact .add i j
  | mul _ _ i j => exact .mul i j
  | sin => exact .sin _
  | cos => exact .cos _

theorem TrigPoly.plain_der {m : Mode} {i s : ℕ} {e d : Expr F} (h : TrigPoly x i s e) (hd : Der m x e d) : PlainForm d := by
  induction h generalizing d with
  | num n =>
    generalize hs : (ofNum n : Expr F) = s at hd
    cases hd with
    | num => exact .num _
    | _ => expr_inj at hs
  | self =>
    generalize hs : (ofVar x : Expr F) = s at hd
    cases hd with
    | var => exact .num _
    | var_ne => exact .num _
    | _ => expr_inj at hs
  | other v =>
    generalize hs : (ofVar v : Expr F) = s at hd
    cases hd with
    | var => exact .num _
    | var_ne => exact .num _
    | _ => expr_inj at hs
  | @add _ _ _ _ a b ha hb i j =>
    generalize hs : a.add b = s at hd
    cases hd with
    | add h1 h2 h3 => expr_inj at hs; obtain ⟨rfl, rfl⟩ := hs; exact (PlainForm.add (i h1) (j h2)).agg h3
    | _ => expr_inj at hs
  | @mul _ _ _ _ a b ha hb i j =>
    generalize hs : a.mul b = s at hd
    cases hd with
    | mul h1 h2 h3 =>
      expr_inj at hs; obtain ⟨rfl, rfl⟩ := hs
      exact (PlainForm.add (.mul (i h1) hb.plain) (.mul ha.plain (j h2))).agg h3
    | _ => expr_inj at hs
  | @sin _ _ a ha hs1 hi ih =>
    generalize hs : a.sin = s at hd
    cases hd with
    | sin h1 h2 => expr_inj at hs; subst hs; exact (PlainForm.mul (.cos _) (ih h1)).agg h2
    | _ => expr_inj at hs
  | @cos _ _ a ha hs1 hi ih =>
    generalize hs : a.cos = s at hd
    cases hd with
    | cos h1 h2 => expr_inj at hs; subst hs; exact (PlainForm.mul (.neg (.sin _)) (ih h1)).agg h2
    | _ => expr_inj at hs

/-- A minus sign that `limit` meets and `num_aggregate` cannot remove. -/
inductive Minus (x : Variable) : Expr F → Prop
  | neg {i s : ℕ} {a : Expr F} : TrigPoly x i s a → s ≤ 1 → 0 < i → Minus x a.sin.neg
  | add_l {a b : Expr F} : Minus x a → Minus x (a.add b)
  | add_r {a b : Expr F} : Minus x b → Minus x (a.add b)
  | mul_l {i s : ℕ} {a b : Expr F} : Minus x a → TrigPoly x i s b → Minus x (a.mul b)
  | mul_r {i s : ℕ} {a b : Expr F} : TrigPoly x i s a → Minus x b → Minus x (a.mul b)

omit [FloatOps F] in
theorem Minus.isNum {e : Expr F} (h : Minus x e) : e.isNum = false := by
  cases h <;> rfl

theorem TrigPoly.not_zero {i s : ℕ} {e : Expr F} (he : WF SmartNum.Valid e) (h : TrigPoly x i s e) : e.isZero = false := by
  cases h with
  | num n q h1 h2 =>
    rw [isZero_ofNum]
    have hn := WF.num_iff.1 he
    cases h0 : n.isZero with
    | false => rfl
    | true => rw [hn.zero_iff.1 h0] at h1; cases h1; exact absurd h2 (lt_irrefl _)
  | _ => rfl

omit [FloatOps F] in
theorem TrigPoly.ne_neg {i s : ℕ} {e : Expr F} (h : TrigPoly x i s e) (c : Expr F) : e ≠ c.neg := by
  intro hc
  cases h <;> expr_inj at hc

theorem agg_sin_trig {i s : ℕ} {a c : Expr F} (hw : WF SmartNum.Valid a) (hp : TrigPoly x i s a) (hi : 0 < i)
    (h : Agg .strict a.sin c) : ∃ a', c = a'.sin ∧ TrigPoly x i s a' := by
  generalize hb : a.sin = b at h
  cases h with
  | sin_num g1 g2 =>
    expr_inj at hb; subst hb
    have := (hp.agg hw g1).isNum hi
    cases this
  | sin g1 g2 g3 => expr_inj at hb; subst hb; exact ⟨_, rfl, hp.agg hw g1⟩
  | _ => expr_inj at hb

theorem Minus.agg {e e' : Expr F} (he : WF SmartNum.Valid e) (h : Minus x e) (ha : Agg .strict e e') : Minus x e' := by
  have wf : ∀ {a a' : Expr F}, WF SmartNum.Valid a → Agg .strict a a' → WF SmartNum.Valid a' :=
    fun v h => h.wf (numClosed_valid _) v
  induction h generalizing e' with
  | @neg i s a hp hs hi =>
    have hw := WF.neg_iff.1 he
    have key := fun {c : Expr F} (h : Agg .strict a.sin c) => (hp.sin hs hi).agg hw h
    generalize hs' : a.sin.neg = e₀ at ha
    cases ha with
    | neg_num h1 _ =>
      expr_inj at hs'; subst hs'
      have := (key h1).isNum hi
      cases this
    | neg_neg h1 =>
      expr_inj at hs'; subst hs'
      exact ((key h1).ne_neg _ rfl).elim
    | @neg _ a' h1 h2 h3 =>
      expr_inj at hs'; subst hs'
      obtain ⟨c, rfl, hc⟩ := agg_sin_trig (WF.sin_iff.1 hw) hp hi h1
      exact .neg hc hs hi
    | _ => expr_inj at hs'
  | @add_l a b ha' ih =>
    have hw := WF.add_iff.1 he
    generalize hs' : a.add b = e₀ at ha
    cases ha with
    | add_num h1 h2 => expr_inj at hs'; obtain ⟨rfl, rfl⟩ := hs'; have := (ih hw.1 h1).isNum; cases this
    | add_zero_l h1 h2 => expr_inj at hs'; obtain ⟨rfl, rfl⟩ := hs'; have := (ih hw.1 h1).isNum; cases this
    | add_zero_r h1 h2 => expr_inj at hs'; obtain ⟨rfl, rfl⟩ := hs'; exact ih hw.1 h1
    | add h1 h2 => expr_inj at hs'; obtain ⟨rfl, rfl⟩ := hs'; exact .add_l (ih hw.1 h1)
    | _ => expr_inj at hs'
  | @add_r a b ha' ih =>
    have hw := WF.add_iff.1 he
    generalize hs' : a.add b = e₀ at ha
    cases ha with
    | add_num h1 h2 => expr_inj at hs'; obtain ⟨rfl, rfl⟩ := hs'; have := (ih hw.2 h2).isNum; cases this
    | add_zero_l h1 h2 => expr_inj at hs'; obtain ⟨rfl, rfl⟩ := hs'; exact ih hw.2 h2
    | add_zero_r h1 h2 => expr_inj at hs'; obtain ⟨rfl, rfl⟩ := hs'; have := (ih hw.2 h2).isNum; cases this
    | add h1 h2 => expr_inj at hs'; obtain ⟨rfl, rfl⟩ := hs'; exact .add_r (ih hw.2 h2)
    | _ => expr_inj at hs'
  | @mul_l i s a b ha' hb ih =>
    have hw := WF.mul_iff.1 he
    generalize hs' : a.mul b = e₀ at ha
    cases ha with
    | mul_num h1 h2 => expr_inj at hs'; obtain ⟨rfl, rfl⟩ := hs'; have := (ih hw.1 h1).isNum; cases this
    | mul_zero_l h1 h2 => expr_inj at hs'; obtain ⟨rfl, rfl⟩ := hs'; have := (ih hw.1 h1).isNum; cases this
    | mul_zero_r h1 h2 h3 =>
      expr_inj at hs'; obtain ⟨rfl, rfl⟩ := hs'
      have := (hb.agg hw.2 h2).not_zero (wf hw.2 h2)
      rw [isZero_ofNum, h3] at this; cases this
    | mul_one_l h1 h2 => expr_inj at hs'; obtain ⟨rfl, rfl⟩ := hs'; have := (ih hw.1 h1).isNum; cases this
    | mul_one_r h1 h2 => expr_inj at hs'; obtain ⟨rfl, rfl⟩ := hs'; exact ih hw.1 h1
    | mul h1 h2 => expr_inj at hs'; obtain ⟨rfl, rfl⟩ := hs'; exact .mul_l (ih hw.1 h1) (hb.agg hw.2 h2)
    | _ => expr_inj at hs'
  | @mul_r i s a b hb ha' ih =>
    have hw := WF.mul_iff.1 he
    generalize hs' : a.mul b = e₀ at ha
    cases ha with
    | mul_num h1 h2 => expr_inj at hs'; obtain ⟨rfl, rfl⟩ := hs'; have := (ih hw.2 h2).isNum; cases this
    | mul_zero_l h1 h2 h3 =>
      expr_inj at hs'; obtain ⟨rfl, rfl⟩ := hs'
      have := (hb.agg hw.1 h1).not_zero (wf hw.1 h1)
      rw [isZero_ofNum, h3] at this; cases this
    | mul_zero_r h1 h2 => expr_inj at hs'; obtain ⟨rfl, rfl⟩ := hs'; have := (ih hw.2 h2).isNum; cases this
    | mul_one_l h1 h2 => expr_inj at hs'; obtain ⟨rfl, rfl⟩ := hs'; exact ih hw.2 h2
    | mul_one_r h1 h2 => expr_inj at hs'; obtain ⟨rfl, rfl⟩ := hs'; have := (ih hw.2 h2).isNum; cases this
    | mul h1 h2 => expr_inj at hs'; obtain ⟨rfl, rfl⟩ := hs'; exact .mul_r (hb.agg hw.1 h1) (ih hw.2 h2)
    | _ => expr_inj at hs'

/-- The derivative of an expression with a cosine contains a minus sign. -/
theorem TrigPoly.minus {i s : ℕ} {e d : Expr F} (he : WF SmartNum.Valid e) (h : TrigPoly x i s e) (hs : s = 2)
    (hd : Der .strict x e d) : Minus x d := by
  have wf : ∀ {a a' : Expr F}, WF SmartNum.Valid a → Der .strict x a a' → WF SmartNum.Valid a' :=
    fun v h => h.wf (numClosed_valid _) v
  induction h generalizing d with
  | num | self | other | sin => omega
  | @add p q s t a b ha hb iha ihb =>
    have hw := WF.add_iff.1 he
    have l1 := ha.le_two
    have l2 := hb.le_two
    generalize hs' : a.add b = s at hd
    cases hd with
    | add h1 h2 h3 =>
      expr_inj at hs'; obtain ⟨rfl, rfl⟩ := hs'
      rcases (by omega : s = 2 ∨ t = 2) with h | h
      · exact (Minus.add_l (iha hw.1 h h1)).agg (.add _ _ (wf hw.1 h1) (wf hw.2 h2)) h3
      · exact (Minus.add_r (ihb hw.2 h h2)).agg (.add _ _ (wf hw.1 h1) (wf hw.2 h2)) h3
    | _ => expr_inj at hs'
  | @mul p q s t a b ha hb iha ihb =>
    have hw := WF.mul_iff.1 he
    have l1 := ha.le_two
    have l2 := hb.le_two
    generalize hs' : a.mul b = s at hd
    cases hd with
    | mul h1 h2 h3 =>
      expr_inj at hs'; obtain ⟨rfl, rfl⟩ := hs'
      have w1 := wf hw.1 h1
      have w2 := wf hw.2 h2
      rcases (by omega : s = 2 ∨ t = 2) with h | h
      · exact (Minus.add_l (.mul_l (iha hw.1 h h1) hb)).agg (.add _ _ (.mul _ _ w1 hw.2) (.mul _ _ hw.1 w2)) h3
      · exact (Minus.add_r (.mul_r ha (ihb hw.2 h h2))).agg (.add _ _ (.mul _ _ w1 hw.2) (.mul _ _ hw.1 w2)) h3
    | _ => expr_inj at hs'
  | @cos i s a ha hs1 hi ih =>
    have hw := WF.cos_iff.1 he
    generalize hs' : a.cos = s at hd
    cases hd with
    | cos h1 h2 =>
      expr_inj at hs'; subst hs'
      obtain ⟨j, t, c1, k1, -⟩ := ha.der hw hs1 h1
      rw [k1 hi] at c1
      rcases c1 with ⟨h, -⟩ | ⟨j, h, c1⟩
      · exact absurd h (ENat.natCast_ne_top _)
      · exact (Minus.mul_l (.neg ha hs1 hi) c1).agg (.mul _ _ (.neg _ (.sin _ hw)) (wf hw h1)) h2
    | _ => expr_inj at hs'

/-! ### limits -/

variable {pt : Expr F} {k : UInt64} {m : Mode}

theorem finish_plain (z : LimitExpression F) (hz : z = .infinitesimal ∨ ∃ c, z = .normal c) :
    finish m z = .panic ∨ finish m z = .ok .infinitesimal ∨ ∃ c, finish m z = .ok (.normal c) := by
  rcases hz with rfl | ⟨c, rfl⟩
  · exact .inr (.inl rfl)
  · cases h : c.numAggregate m with
    | panic => left; simp [finish, h]
    | ok c' => right; right; exact ⟨c', by simp [finish, h]⟩

theorem substLimit_plain (e : Expr F) :
    (substLimit m e x pt >>= finish m) = .panic ∨ (substLimit m e x pt >>= finish m) = .ok .infinitesimal ∨
      ∃ c, (substLimit m e x pt >>= finish m) = .ok (.normal c) := by
  rw [substLimit_eq]
  cases h : (e.replace x pt).numAggregate m with
  | panic => exact .inl rfl
  | ok q =>
    simp only [LOut.ofRes_ok, LOut.ok_bind]
    split_ifs
    · exact finish_plain (m := m) .infinitesimal (.inl rfl)
    · exact finish_plain _ (.inr ⟨_, rfl⟩)

/-- Without divisions the search does not fail with an error and answers are finite. -/
theorem PlainForm.limit {e : Expr F} (h : PlainForm e) (n : Nat) :
    limit m x pt k n e = .fuel ∨ limit m x pt k n e = .panic ∨ limit m x pt k n e = .ok .infinitesimal ∨
      ∃ c, limit m x pt k n e = .ok (.normal c) := by
  induction h generalizing n with
  | num v =>
    cases n with
    | zero => exact .inl rfl
    | succ n => rw [limit_ofNum]; exact .inr (.inr (.inr ⟨_, rfl⟩))
  | var v =>
    cases n with
    | zero => exact .inl rfl
    | succ n =>
      rw [limit_ofVar]
      refine .inr ?_
      split_ifs <;> simp only [LOut.ok_bind]
      · exact finish_plain (m := m) .infinitesimal (.inl rfl)
      · exact finish_plain _ (.inr ⟨_, rfl⟩)
      · exact finish_plain _ (.inr ⟨_, rfl⟩)
  | sin a =>
    cases n with
    | zero => exact .inl rfl
    | succ n =>
      rw [limit_sin]
      refine .inr ?_
      split_ifs
      · exact finish_plain (m := m) .infinitesimal (.inl rfl)
      · exact substLimit_plain _
  | cos a =>
    cases n with
    | zero => exact .inl rfl
    | succ n => rw [limit_cos]; exact .inr (substLimit_plain _)
  | neg _ =>
    cases n with
    | zero => exact .inl rfl
    | succ n => rw [limit_neg]; exact .inr (.inl rfl)
  | add _ _ ia ib =>
    cases n with
    | zero => exact .inl rfl
    | succ n =>
      rw [limit_add]
      simp only [addBody]
      rcases ib n with h | h | h | ⟨c, h⟩
      · rw [h]; exact .inl rfl
      · rw [h]; exact .inr (.inl rfl)
      all_goals
        rcases ia n with h' | h' | h' | ⟨d, h'⟩
        · rw [h, h']; exact .inl rfl
        · rw [h, h']; exact .inr (.inl rfl)
        all_goals
          rw [h, h']
          simp only [LOut.ok_bind, LimitExpression.add, LimitExpression.mul]
          refine .inr (finish_plain _ ?_)
          first | exact .inl rfl | exact .inr ⟨_, rfl⟩
  | mul _ _ ia ib =>
    cases n with
    | zero => exact .inl rfl
    | succ n =>
      rw [limit_mul]
      simp only [mulBody]
      rcases ib n with h | h | h | ⟨c, h⟩
      · rw [h]; exact .inl rfl
      · rw [h]; exact .inr (.inl rfl)
      all_goals
        rcases ia n with h' | h' | h' | ⟨d, h'⟩
        · rw [h, h']; exact .inl rfl
        · rw [h, h']; exact .inr (.inl rfl)
        all_goals
          rw [h, h']
          simp only [LOut.ok_bind, LimitExpression.add, LimitExpression.mul]
          refine .inr (finish_plain _ ?_)
          first | exact .inl rfl | exact .inr ⟨_, rfl⟩

omit [FloatOps F] in
theorem PlainForm.of_add {a b : Expr F} (h : PlainForm (a.add b)) : PlainForm a ∧ PlainForm b := by
  generalize hs : a.add b = e at h
  cases h with
  | add h1 h2 => expr_inj at hs; obtain ⟨rfl, rfl⟩ := hs; exact ⟨h1, h2⟩
  | _ => expr_inj at hs

omit [FloatOps F] in
theorem PlainForm.of_mul {a b : Expr F} (h : PlainForm (a.mul b)) : PlainForm a ∧ PlainForm b := by
  generalize hs : a.mul b = e at h
  cases h with
  | mul h1 h2 => expr_inj at hs; obtain ⟨rfl, rfl⟩ := hs; exact ⟨h1, h2⟩
  | _ => expr_inj at hs

/-- `limit` gives up at the minus sign. -/
theorem Minus.limit {e : Expr F} (h : Minus x e) (hp : PlainForm e) (n : Nat) :
    limit m x pt k n e = .fuel ∨ limit m x pt k n e = .panic := by
  induction h generalizing n with
  | neg =>
    cases n with
    | zero => exact .inl rfl
    | succ n => rw [limit_neg]; exact .inr rfl
  | @add_l a b _ ih =>
    obtain ⟨p1, p2⟩ := hp.of_add
    cases n with
    | zero => exact .inl rfl
    | succ n =>
      rw [limit_add]
      simp only [addBody]
      rcases p2.limit (m := m) (x := x) (pt := pt) (k := k) n with h | h | h | ⟨c, h⟩
      · rw [h]; exact .inl rfl
      · rw [h]; exact .inr rfl
      all_goals
        rcases ih p1 n with h' | h'
        · rw [h, h']; exact .inl rfl
        · rw [h, h']; exact .inr rfl
  | @add_r a b _ ih =>
    obtain ⟨p1, p2⟩ := hp.of_add
    cases n with
    | zero => exact .inl rfl
    | succ n =>
      rw [limit_add]
      simp only [addBody]
      rcases ih p2 n with h | h
      · rw [h]; exact .inl rfl
      · rw [h]; exact .inr rfl
  | @mul_l _ _ a b _ _ ih =>
    obtain ⟨p1, p2⟩ := hp.of_mul
    cases n with
    | zero => exact .inl rfl
    | succ n =>
      rw [limit_mul]
      simp only [mulBody]
      rcases p2.limit (m := m) (x := x) (pt := pt) (k := k) n with h | h | h | ⟨c, h⟩
      · rw [h]; exact .inl rfl
      · rw [h]; exact .inr rfl
      all_goals
        rcases ih p1 n with h' | h'
        · rw [h, h']; exact .inl rfl
        · rw [h, h']; exact .inr rfl
  | @mul_r _ _ a b _ _ ih =>
    obtain ⟨p1, p2⟩ := hp.of_mul
    cases n with
    | zero => exact .inl rfl
    | succ n =>
      rw [limit_mul]
      simp only [mulBody]
      rcases ih p2 n with h | h
      · rw [h]; exact .inl rfl
      · rw [h]; exact .inr rfl

/-- In every build: vanishing is seen. -/
theorem TrigPoly.limit_zero {i s : ℕ} {e : Expr F} (h : TrigPoly x i s e) (hz : pt.isZero = true) (hi : 0 < i) (n : Nat) :
    limit m x pt k n e = .fuel ∨ limit m x pt k n e = .panic ∨ limit m x pt k n e = .ok .infinitesimal := by
  induction h generalizing n with
  | num | other | cos => omega
  | self =>
    cases n with
    | zero => exact .inl rfl
    | succ n => rw [limit_ofVar]; simp only [if_true, hz]; exact .inr (.inr rfl)
  | sin =>
    cases n with
    | zero => exact .inl rfl
    | succ n => rw [limit_sin, if_pos hz]; exact .inr (.inr rfl)
  | add _ _ ia ib =>
    cases n with
    | zero => exact .inl rfl
    | succ n =>
      rw [limit_add]
      simp only [addBody]
      rcases ib (by omega) n with h | h | h
      · rw [h]; exact .inl rfl
      · rw [h]; exact .inr (.inl rfl)
      · rcases ia (by omega) n with h' | h' | h'
        · rw [h, h']; exact .inl rfl
        · rw [h, h']; exact .inr (.inl rfl)
        · rw [h, h']; exact .inr (.inr rfl)
  | @mul p q _ _ a b ha hb ia ib =>
    cases n with
    | zero => exact .inl rfl
    | succ n =>
      rw [limit_mul]
      simp only [mulBody]
      rcases hb.plain.limit (m := m) (x := x) (pt := pt) (k := k) n with h | h | h | ⟨c, h⟩
      · rw [h]; exact .inl rfl
      · rw [h]; exact .inr (.inl rfl)
      · rcases ha.plain.limit (m := m) (x := x) (pt := pt) (k := k) n with h' | h' | h' | ⟨d, h'⟩
        · rw [h, h']; exact .inl rfl
        · rw [h, h']; exact .inr (.inl rfl)
        · rw [h, h']; exact .inr (.inr rfl)
        · rw [h, h']; exact .inr (.inr rfl)
      · have hp : 0 < p := by
          rcases Nat.eq_zero_or_pos q with rfl | hq
          · omega
          · rcases ib hq n with g | g | g <;> rw [g] at h <;> cases h
        rcases ia hp n with h' | h' | h'
        · rw [h, h']; exact .inl rfl
        · rw [h, h']; exact .inr (.inl rfl)
        · rw [h, h']; exact .inr (.inr rfl)

/-- A sine polynomial that vanishes becomes the number 0 when 0 is put in. -/
theorem TrigPoly.at_zero {i s : ℕ} {e q : Expr F} {n0 : SmartNum F} (h0 : n0.isZero = true) (hv0 : n0.Valid)
    (he : WF SmartNum.Valid e) (h : TrigPoly x i s e) (hi : 0 < i) (ha : Agg .strict (e.replace x (ofNum n0)) q) :
    ∃ n : SmartNum F, q = ofNum n ∧ n.isZero = true := by
  have wr : ∀ {a a' : Expr F}, WF SmartNum.Valid a → Agg .strict (a.replace x (ofNum n0)) a' → WF SmartNum.Valid a' := by
    intro a a' h1 h2
    exact h2.wf (numClosed_valid _) (WF.replace h1 (.num _ hv0) x)
  induction h generalizing q with
  | num | other | cos => omega
  | self =>
    rw [replace_ofVar, if_pos rfl] at ha
    obtain rfl := ha.unique (.num _ trivial) (.num n0)
    exact ⟨n0, rfl, h0⟩
  | @add _ _ _ _ a b _ _ ia ib =>
    have hw := WF.add_iff.1 he
    rw [replace_add] at ha
    generalize hs : (a.replace x (ofNum n0)).add (b.replace x (ofNum n0)) = e₀ at ha
    cases ha with
    | @add_num _ _ u v w h1 h2 h3 =>
      expr_inj at hs; obtain ⟨rfl, rfl⟩ := hs
      obtain ⟨u', hu, zu⟩ := ia hw.1 (by omega) h1
      obtain ⟨v', hv, zv⟩ := ib hw.2 (by omega) h2
      expr_inj at hu; expr_inj at hv; subst hu; subst hv
      have vu := WF.num_iff.1 (wr hw.1 h1)
      have vv := WF.num_iff.1 (wr hw.2 h2)
      have vw : w.Valid := (numClosed_valid _).add _ _ _ vu vv h3
      refine ⟨w, rfl, vw.zero_iff.2 ?_⟩
      simpa using SmartNum.add_exact vu vv (vu.zero_iff.1 zu) (vv.zero_iff.1 zv) h3
    | add_zero_l h1 h2 h3 h4 =>
      expr_inj at hs; obtain ⟨rfl, rfl⟩ := hs
      obtain ⟨v', rfl, zv⟩ := ib hw.2 (by omega) h2
      cases h4
    | add_zero_r h1 h2 h3 h4 =>
      expr_inj at hs; obtain ⟨rfl, rfl⟩ := hs
      obtain ⟨v', rfl, zv⟩ := ia hw.1 (by omega) h1
      cases h4
    | add h1 h2 h3 h4 =>
      expr_inj at hs; obtain ⟨rfl, rfl⟩ := hs
      obtain ⟨v', rfl, zv⟩ := ia hw.1 (by omega) h1
      rw [isZero_ofNum, zv] at h4; cases h4
    | _ => expr_inj at hs
  | @mul i j _ _ a b _ _ ia ib =>
    have hw := WF.mul_iff.1 he
    rw [replace_mul] at ha
    generalize hs : (a.replace x (ofNum n0)).mul (b.replace x (ofNum n0)) = e₀ at ha
    have hij : 0 < i ∨ 0 < j := by omega
    cases ha with
    | @mul_num _ _ u v w h1 h2 h3 =>
      expr_inj at hs; obtain ⟨rfl, rfl⟩ := hs
      refine ⟨w, rfl, mul_isZero (WF.num_iff.1 (wr hw.1 h1)) (WF.num_iff.1 (wr hw.2 h2)) ?_ h3⟩
      rcases hij with h | h
      · obtain ⟨u', hu, zu⟩ := ia hw.1 h h1
        expr_inj at hu; subst hu; exact .inl zu
      · obtain ⟨u', hu, zu⟩ := ib hw.2 h h2
        expr_inj at hu; subst hu; exact .inr zu
    | mul_zero_l => exact ⟨_, rfl, rfl⟩
    | mul_zero_r => exact ⟨_, rfl, rfl⟩
    | mul_one_l h1 h2 h3 h4 =>
      expr_inj at hs; obtain ⟨rfl, rfl⟩ := hs
      rcases hij with h | h
      · obtain ⟨u', hu, zu⟩ := ia hw.1 h h1
        expr_inj at hu; subst hu
        exact ((WF.num_iff.1 (wr hw.1 h1)).not_zero_one zu h3).elim
      · obtain ⟨u', rfl, zu⟩ := ib hw.2 h h2
        cases h4
    | mul_one_r h1 h2 h3 h4 =>
      expr_inj at hs; obtain ⟨rfl, rfl⟩ := hs
      rcases hij with h | h
      · obtain ⟨u', rfl, zu⟩ := ia hw.1 h h1
        cases h4
      · obtain ⟨u', hu, zu⟩ := ib hw.2 h h2
        expr_inj at hu; subst hu
        exact ((WF.num_iff.1 (wr hw.2 h2)).not_zero_one zu h3).elim
    | mul h1 h2 h3 h4 h5 =>
      expr_inj at hs; obtain ⟨rfl, rfl⟩ := hs
      rcases hij with h | h
      · obtain ⟨u', rfl, zu⟩ := ia hw.1 h h1
        rw [isZero_ofNum, zu] at h4; cases h4
      · obtain ⟨u', rfl, zu⟩ := ib hw.2 h h2
        rw [isZero_ofNum, zu] at h5; cases h5
    | _ => expr_inj at hs
  | @sin _ _ a _ _ _ ih =>
    have hw := WF.sin_iff.1 he
    rw [replace_sin] at ha
    generalize hs : (a.replace x (ofNum n0)).sin = e₀ at ha
    cases ha with
    | sin_num => exact ⟨_, rfl, rfl⟩
    | sin h1 h2 =>
      expr_inj at hs; subst hs
      obtain ⟨u', rfl, zu⟩ := ih hw (by omega) h1
      rw [isZero_ofNum, zu] at h2; cases h2
    | _ => expr_inj at hs

/-- What `limit` at 0 says in a run without overflow. -/
theorem TrigPoly.limit {i s : ℕ} {e : Expr F} {n0 : SmartNum F} (h0 : n0.isZero = true) (hv0 : n0.Valid)
    (he : WF SmartNum.Valid e) (h : TrigPoly x i s e) (n : Nat) :
    let o := limit .strict x (ofNum n0) k n e
    o = .fuel ∨ o = .panic ∨ (1 ≤ i ∧ o = .ok .infinitesimal) ∨
      (i = 0 ∧ ∃ c, o = .ok (.normal c) ∧ WF SmartNum.Valid c ∧ PosPoly x 0 c) := by
  intro o
  simp only [o]
  clear o
  have fin : ∀ {c : Expr F}, WF SmartNum.Valid c → PosPoly x 0 c → finish .strict (.normal c) = .panic ∨
      ∃ c', finish .strict (.normal c) = .ok (.normal c') ∧ WF SmartNum.Valid c' ∧ PosPoly x 0 c' := by
    intro c vc hc
    cases h : c.numAggregate .strict with
    | panic => left; simp [finish, h]
    | ok c' =>
      have ha := agg_of_numAggregate vc.tree h
      exact .inr ⟨c', by simp [finish, h], ha.wf (numClosed_valid _) vc, hc.agg vc ha⟩
  induction h generalizing n with
  | num v q h1 h2 =>
    cases n with
    | zero => exact .inl rfl
    | succ n => rw [limit_ofNum]; exact .inr (.inr (.inr ⟨rfl, _, rfl, he, .num v q h1 h2⟩))
  | self =>
    cases n with
    | zero => exact .inl rfl
    | succ n => rw [limit_ofVar]; simp only [if_true, isZero_ofNum, h0]; exact .inr (.inr (.inl ⟨le_rfl, rfl⟩))
  | other v hv =>
    cases n with
    | zero => exact .inl rfl
    | succ n =>
      rw [limit_ofVar, if_neg (Ne.symm hv)]
      simp only [LOut.ok_bind]
      rcases fin he (.other v hv) with h | ⟨c, h, h1, h2⟩
      · exact .inr (.inl h)
      · exact .inr (.inr (.inr ⟨trivial, c, h, h1, h2⟩))
  | @add i j _ _ a b ha hb iha ihb =>
    have hw := WF.add_iff.1 he
    cases n with
    | zero => exact .inl rfl
    | succ n =>
      rw [limit_add]
      simp only [addBody]
      rcases ihb hw.2 n with h | h | ⟨hj, h⟩ | ⟨rfl, c, h, vc, pc⟩
      · rw [h]; exact .inl rfl
      · rw [h]; exact .inr (.inl rfl)
      · rcases iha hw.1 n with h' | h' | ⟨hi, h'⟩ | ⟨rfl, d, h', vd, pd⟩
        · rw [h, h']; exact .inl rfl
        · rw [h, h']; exact .inr (.inl rfl)
        · rw [h, h']; exact .inr (.inr (.inl ⟨by omega, rfl⟩))
        · rw [h, h']
          rcases fin vd pd with g | ⟨c', g, h1, h2⟩
          · exact .inr (.inl g)
          · exact .inr (.inr (.inr ⟨by omega, c', g, h1, h2⟩))
      · rcases iha hw.1 n with h' | h' | ⟨hi, h'⟩ | ⟨rfl, d, h', vd, pd⟩
        · rw [h, h']; exact .inl rfl
        · rw [h, h']; exact .inr (.inl rfl)
        · rw [h, h']
          rcases fin vc pc with g | ⟨c', g, h1, h2⟩
          · exact .inr (.inl g)
          · exact .inr (.inr (.inr ⟨by omega, c', g, h1, h2⟩))
        · rw [h, h']
          rcases fin (.add _ _ vd vc) (pd.add pc) with g | ⟨c', g, h1, h2⟩
          · exact .inr (.inl g)
          · exact .inr (.inr (.inr ⟨by omega, c', g, h1, h2⟩))
  | @mul i j _ _ a b ha hb iha ihb =>
    have hw := WF.mul_iff.1 he
    cases n with
    | zero => exact .inl rfl
    | succ n =>
      rw [limit_mul]
      simp only [mulBody]
      rcases ihb hw.2 n with h | h | ⟨hj, h⟩ | ⟨rfl, c, h, vc, pc⟩
      · rw [h]; exact .inl rfl
      · rw [h]; exact .inr (.inl rfl)
      · rcases iha hw.1 n with h' | h' | ⟨hi, h'⟩ | ⟨rfl, d, h', vd, pd⟩
        · rw [h, h']; exact .inl rfl
        · rw [h, h']; exact .inr (.inl rfl)
        · rw [h, h']; exact .inr (.inr (.inl ⟨by omega, rfl⟩))
        · rw [h, h']; exact .inr (.inr (.inl ⟨by omega, rfl⟩))
      · rcases iha hw.1 n with h' | h' | ⟨hi, h'⟩ | ⟨rfl, d, h', vd, pd⟩
        · rw [h, h']; exact .inl rfl
        · rw [h, h']; exact .inr (.inl rfl)
        · rw [h, h']; exact .inr (.inr (.inl ⟨by omega, rfl⟩))
        · rw [h, h']
          rcases fin (.mul _ _ vd vc) (pd.mul pc) with g | ⟨c', g, h1, h2⟩
          · exact .inr (.inl g)
          · exact .inr (.inr (.inr ⟨rfl, c', g, h1, h2⟩))
  | @sin i s a ha hs hi ih =>
    rcases (ha.sin hs hi).limit_zero (m := .strict) (pt := ofNum n0) (k := k) h0 hi n with g | g | g
    · exact .inl g
    · exact .inr (.inl g)
    · exact .inr (.inr (.inl ⟨hi, g⟩))
  | @cos i s a ha hs hi ih =>
    cases n with
    | zero => exact .inl rfl
    | succ n =>
      rw [limit_cos, substLimit_eq]
      cases hA : (a.cos.replace x (ofNum n0)).numAggregate .strict with
      | panic => exact .inr (.inl rfl)
      | ok q =>
        have hw := WF.cos_iff.1 he
        have h1 := agg_of_numAggregate (WF.replace he.tree (.num _ trivial) x) hA
        have : q = ofI64 1 := by
          rw [replace_cos] at h1
          generalize hs' : (a.replace x (ofNum n0)).cos = e₀ at h1
          cases h1 with
          | cos_num => rfl
          | cos g1 g2 =>
            expr_inj at hs'; subst hs'
            obtain ⟨u', rfl, zu⟩ := ha.at_zero h0 hv0 hw hi g1
            rw [isZero_ofNum, zu] at g2; cases g2
          | _ => expr_inj at hs'
        subst this
        exact .inr (.inr (.inr ⟨rfl, _, rfl, .num _ ((numClosed_valid .strict).ofI64 1), .num _ 1 rfl one_pos⟩))

theorem mul_sinc (u : ℝ) : u * Real.sinc u = Real.sin u := by
  rcases eq_or_ne u 0 with rfl | h
  · simp
  · rw [Real.sinc_of_ne_zero h]; field_simp

/-- The value is `t^i` times a continuous function that is positive at 0. -/
theorem TrigPoly.value {ν : SmartNum F → Option ℝ} (hν : ∀ n : SmartNum F, n.Valid → ∀ q : ℚ, n.exact? = some q → ν n = some (q : ℝ))
    {i s : ℕ} {e : Expr F} (he : WF SmartNum.Valid e) (h : TrigPoly x i s e) {env : Env}
    (hp : ∀ v, 0 < env v) : ∃ g : ℝ → ℝ, Continuous g ∧ 0 < g 0 ∧
      ∀ t, denote ν (env.set x t) e = some (t ^ i * g t) := by
  induction h with
  | num n q h1 h2 =>
    refine ⟨fun _ => q, continuous_const, by simpa using h2, fun t => ?_⟩
    rw [denote_ofNum, hν _ (WF.num_iff.1 he) q h1]; simp
  | self => exact ⟨fun _ => 1, continuous_const, one_pos, fun t => by rw [denote_ofVar]; simp⟩
  | other v hv =>
    exact ⟨fun _ => env v, continuous_const, hp v, fun t => by rw [denote_ofVar, Env.set_ne _ _ (Ne.symm hv)]; simp⟩
  | @add i j _ _ a b ha hb iha ihb =>
    have hw := WF.add_iff.1 he
    obtain ⟨g, cg, pg, vg⟩ := iha hw.1
    obtain ⟨h, ch, ph, vh⟩ := ihb hw.2
    refine ⟨fun t => t ^ (i - min i j) * g t + t ^ (j - min i j) * h t, by fun_prop, ?_, fun t => ?_⟩
    · show 0 < (0:ℝ) ^ (i - min i j) * g 0 + (0:ℝ) ^ (j - min i j) * h 0
      rcases le_total i j with hij | hij
      · rw [min_eq_left hij, Nat.sub_self, pow_zero, one_mul]
        exact add_pos_of_pos_of_nonneg pg (mul_nonneg (by positivity) ph.le)
      · rw [min_eq_right hij, Nat.sub_self, pow_zero, one_mul]
        exact add_pos_of_nonneg_of_pos (mul_nonneg (by positivity) pg.le) ph
    · refine denote_add.2 ⟨_, _, vg t, vh t, ?_⟩
      rw [mul_add, ← mul_assoc, ← mul_assoc, ← pow_add, ← pow_add, Nat.add_sub_cancel' (min_le_left i j),
        Nat.add_sub_cancel' (min_le_right i j)]
  | @mul i j _ _ a b ha hb iha ihb =>
    have hw := WF.mul_iff.1 he
    obtain ⟨g, cg, pg, vg⟩ := iha hw.1
    obtain ⟨h, ch, ph, vh⟩ := ihb hw.2
    exact ⟨fun t => g t * h t, cg.mul ch, mul_pos pg ph, fun t => denote_mul.2 ⟨_, _, vg t, vh t, by rw [pow_add]; ring⟩⟩
  | @sin i s a ha hs hi ih =>
    obtain ⟨g, cg, pg, vg⟩ := ih (WF.sin_iff.1 he)
    refine ⟨fun t => g t * Real.sinc (t ^ i * g t), cg.mul (Real.continuous_sinc.comp (by fun_prop)), ?_, fun t => ?_⟩
    · show 0 < g 0 * Real.sinc (0 ^ i * g 0)
      rw [zero_pow hi.ne', zero_mul, Real.sinc_zero, mul_one]; exact pg
    · exact denote_sin.2 ⟨_, vg t, by rw [← mul_assoc, mul_sinc]⟩
  | @cos i s a ha hs hi ih =>
    obtain ⟨g, cg, pg, vg⟩ := ih (WF.cos_iff.1 he)
    refine ⟨fun t => Real.cos (t ^ i * g t), Real.continuous_cos.comp (by fun_prop), ?_, fun t => ?_⟩
    · show 0 < Real.cos (0 ^ i * g 0)
      rw [zero_pow hi.ne', zero_mul, Real.cos_zero]; exact one_pos
    · exact denote_cos.2 ⟨_, vg t, by simp⟩

theorem TrigPoly.low {i s : ℕ} {e e' : Expr F} (hi : 1 ≤ i) (hs : s ≤ 1) (he : WF SmartNum.Valid e) (hp : TrigPoly x i s e)
    (hd : Der .strict x e e') : ∃ t, TrigPoly x (i - 1) t e' ∧ (s = 1 → t = 2) := by
  obtain ⟨j, t, hc, hj, ht⟩ := hp.der he hs hd
  rw [hj hi] at hc
  rcases hc with ⟨h, -⟩ | ⟨j, h, hp⟩
  · exact absurd h (by simp)
  · have : i - 1 = j := by exact_mod_cast h
    rw [this]; exact ⟨t, hp, fun h => (ht h).2⟩

theorem TrigPoly.lift {i s : ℕ} {e : Expr F} (he : WF SmartNum.Valid e) (h : TrigPoly x i s e) : TrigPoly x i s e.lift := by
  induction h with
  | num n q h1 h2 =>
    have hn := WF.num_iff.1 he
    have : n.lift.exact? = some q := by
      rw [← h1]
      conv_rhs => rw [← SmartNum.map_lift hn]
      rw [SmartNum.exact?_map]
    simpa [Expr.lift] using TrigPoly.num (x := x) n.lift q this h2
  | self => simpa [Expr.lift] using TrigPoly.self
  | other v hv => simpa [Expr.lift] using TrigPoly.other v hv
  | add _ _ i j => have := WF.add_iff.1 he; simpa [Expr.lift] using (i this.1).add (j this.2)
  | mul _ _ i j => have := WF.mul_iff.1 he; simpa [Expr.lift] using (i this.1).mul (j this.2)
  | sin _ hs hi ih => have := WF.sin_iff.1 he; simpa [Expr.lift] using (ih this).sin hs hi
  | cos _ hs hi ih => have := WF.cos_iff.1 he; simpa [Expr.lift] using (ih this).cos hs hi

end SymRust

namespace SymRust
open Expr Filter Topology
variable {F : Type} [ExactFloat F] {x : Variable} {env : Env} {l r : Expr F} {n0 : SmartNum F} {k : UInt64} {n : Nat}
  {z : LimitExpression F}

theorem TrigPoly.quotient {i s t : ℕ} (hi : i ≤ 1) (hs : s ≤ 1) (ht : t ≤ 1) (hn0 : n0.Valid) (hz : n0.isZero = true)
    (hp : ∀ v, 0 < env v) (hpt : denote SmartNum.value? env (ofNum n0) = some 0)
    (hl : Regular env x (ofNum n0) 0 l) (hr : Regular env x (ofNum n0) 0 r) (pl : TrigPoly x i s l) (pr : TrigPoly x i t r)
    (h : Expr.limit .strict x (ofNum n0) k n (l.div r) = .ok z) :
    ∃ w, Means env w z ∧ Tendsto (fun t => fn SmartNum.value? env x l t / fn SmartNum.value? env x r t) (𝓝[≠] 0) (𝓝 w) := by
  obtain ⟨q, hq, li, ri, a, b, g1, g2, g3, g4, ma, mb, ⟨w, hw, hf⟩, h0⟩ := lhopital_steps hpt (.num _ hn0) (safe_ofNum _) hl hr h
  have nth : ∀ {q s : ℕ} {e d : Expr F}, q ≤ i → s ≤ 1 → WF SmartNum.Valid e → TrigPoly x i s e →
      nthDerivative .strict e x q = .ok d → WF SmartNum.Valid d ∧ ∃ s', TrigPoly x (i - q) s' d := by
    intro q s e d hq hs he hp hd
    rcases (by omega : q = 0 ∨ q = 1) with rfl | rfl
    · cases hd; exact ⟨he, s, hp⟩
    · obtain ⟨d', h1, h2⟩ := Out.bind_eq_ok.1 hd
      cases h1
      have hd := der_of_derivative he.tree h2
      obtain ⟨t, h, -⟩ := hp.low hq hs he hd
      exact ⟨hd.wf (numClosed_valid _) he, t, h⟩
  have pos : ∀ {d : Expr F}, nthDerivative .strict r x i = .ok d → iteratedDeriv i (fn SmartNum.value? env x r) 0 ≠ 0 := by
    intro d hd
    obtain ⟨v, s', p⟩ := nth le_rfl ht hr.wf pr hd
    obtain ⟨g, -, pg, hg⟩ := p.value (ν := SmartNum.value?)
      (fun n _ q hq => SmartNum.value?_iff.2 (.inl ⟨q, hq, rfl⟩)) v hp
    have h1 := (hr.derivative i hd).2
    rw [hg 0] at h1
    simp only [Nat.sub_self, pow_zero, one_mul, Option.some.injEq] at h1
    rw [← h1]; exact pg.ne'
  have hqi : q = i := by
    rcases lt_trichotomy q i with hlt | rfl | hlt
    · exfalso
      have inf : ∀ {s : ℕ} {e d : Expr F} {a : LimitExpression F}, s ≤ 1 → WF SmartNum.Valid e → TrigPoly x i s e →
          nthDerivative .strict e x q = .ok d → Expr.limit .strict x (ofNum n0) k (n - 1) d = .ok a → a = .infinitesimal := by
        intro s e d a hs ve pe hd ha
        obtain ⟨v, s', p⟩ := nth hlt.le hs ve pe hd
        rcases p.limit_zero (m := .strict) (pt := ofNum n0) (k := k) hz (by omega) (n - 1) with h | h | h
        · rw [h] at ha; cases ha
        · rw [h] at ha; cases ha
        · rw [h] at ha; cases ha; rfl
      rw [inf hs hl.wf pl g1 g3, inf ht hr.wf pr g2 g4] at hw
      cases hw
    · rfl
    · obtain ⟨d, hd⟩ := nthDerivative_prefix hlt.le g2
      exact absurd (h0 i hlt).2 (pos hd)
  subst hqi
  obtain ⟨w', hw', hm⟩ := div_means ma mb (pos g2)
  rw [hw] at hw'; cases hw'
  exact ⟨_, finish_means hm hf, quotient_tendsto hl hr h0 (pos g2)⟩

end SymRust
