import Verif.Spec.PosPoly
import Verif.Proofs.LHopital
import Verif.Proofs.Vanish
import Verif.Props.LimitSem
import Mathlib.Data.ENat.Basic
/-! Polynomials with positive coefficients: `derivative` lowers the lowest power, `limit` at 0 sees it. -/

namespace SymRust
variable {F : Type} [FloatOps F] {x : Variable}
open Expr

/-- A positive polynomial of lowest power `n`, or (`n = ⊤`) a number that is 0. -/
def Clean (x : Variable) (n : ℕ∞) (e : Expr F) : Prop :=
  (n = ⊤ ∧ ∃ k : SmartNum F, e = ofNum k ∧ k.isZero = true) ∨ ∃ i : ℕ, n = i ∧ PosPoly x i e

theorem posPoly_num {i : ℕ} {n : SmartNum F} (h : PosPoly x i (ofNum n)) : i = 0 ∧ ∃ q, n.exact? = some q ∧ 0 < q := by
  generalize he : (ofNum n : Expr F) = e at h
  cases h with
  | num n' q h1 h2 => expr_inj at he; subst he; exact ⟨rfl, q, h1, h2⟩
  | _ => expr_inj at he

theorem clean_num {i : ℕ∞} {n : SmartNum F} (hn : n.Valid) (h : Clean x i (ofNum n)) :
    (i = ⊤ ∧ n.isZero = true ∧ n.exact? = some 0) ∨ (i = 0 ∧ n.isZero = false ∧ ∃ q, n.exact? = some q ∧ 0 < q) := by
  rcases h with ⟨rfl, k, hk, h0⟩ | ⟨i, rfl, h⟩
  · expr_inj at hk; subst hk; exact .inl ⟨rfl, h0, hn.zero_iff.1 h0⟩
  · obtain ⟨rfl, q, h1, h2⟩ := posPoly_num h
    refine .inr ⟨rfl, ?_, q, h1, h2⟩
    cases h0 : n.isZero with
    | false => rfl
    | true => rw [hn.zero_iff.1 h0] at h1; cases h1; exact absurd h2 (lt_irrefl _)

theorem clean_ofI64_zero : Clean x ⊤ (ofI64 0 : Expr F) := .inl ⟨rfl, _, rfl, rfl⟩

theorem clean_of_exact {n : SmartNum F} {q : ℚ} (h : n.exact? = some q) (hq : 0 < q) : Clean x 0 (ofNum n) :=
  .inr ⟨0, rfl, .num n q h hq⟩

theorem clean_zero_of_exact {n : SmartNum F} (hn : n.Valid) (h : n.exact? = some 0) : Clean x ⊤ (ofNum n) :=
  .inl ⟨rfl, n, rfl, hn.zero_iff.2 h⟩

theorem Clean.pos {i : ℕ∞} {e : Expr F} (h : Clean x i e) (h0 : e.isZero = false) : ∃ j : ℕ, i = j ∧ PosPoly x j e := by
  rcases h with ⟨rfl, k, rfl, hz⟩ | h
  · rw [isZero_ofNum, hz] at h0; cases h0
  · exact h

theorem Clean.pos_of_not_num {i : ℕ∞} {e : Expr F} (h : Clean x i e) (h0 : e.isNum = false) : ∃ j : ℕ, i = j ∧ PosPoly x j e := by
  rcases h with ⟨rfl, k, rfl, hz⟩ | h
  · cases h0
  · exact h

theorem agg_add_clean {i j : ℕ∞} {a b e : Expr F} (h : Agg .strict (a.add b) e) (va : WF SmartNum.Valid a)
    (vb : WF SmartNum.Valid b) (ha : ∀ a', Agg .strict a a' → Clean x i a') (hb : ∀ b', Agg .strict b b' → Clean x j b') :
    Clean x (min i j) e := by
  have wf : ∀ {a a' : Expr F}, WF SmartNum.Valid a → Agg .strict a a' → WF SmartNum.Valid a' :=
    fun v h => h.wf (numClosed_valid _) v
  generalize he : a.add b = s at h
  cases h with
  | @add_num a b u v w h1 h2 h3 =>
    expr_inj at he; obtain ⟨rfl, rfl⟩ := he
    have vu := WF.num_iff.1 (wf va h1)
    have vv := WF.num_iff.1 (wf vb h2)
    have vw : w.Valid := (numClosed_valid _).add _ _ _ vu vv h3
    rcases clean_num vu (ha _ h1) with ⟨rfl, _, e1⟩ | ⟨rfl, _, p, e1, hp⟩ <;>
      rcases clean_num vv (hb _ h2) with ⟨rfl, _, e2⟩ | ⟨rfl, _, q, e2, hq⟩
    · simpa using clean_zero_of_exact vw (by simpa using SmartNum.add_exact vu vv e1 e2 h3)
    · simpa using clean_of_exact (by simpa using SmartNum.add_exact vu vv e1 e2 h3) hq
    · simpa using clean_of_exact (by simpa using SmartNum.add_exact vu vv e1 e2 h3) hp
    · simpa using clean_of_exact (SmartNum.add_exact vu vv e1 e2 h3) (add_pos hp hq)
  | add_zero_l h1 h2 h3 =>
    expr_inj at he; obtain ⟨rfl, rfl⟩ := he
    rcases clean_num (WF.num_iff.1 (wf va h1)) (ha _ h1) with ⟨rfl, _, e1⟩ | ⟨rfl, h0, _⟩
    · simpa using hb _ h2
    · rw [h3] at h0; cases h0
  | add_zero_r h1 h2 h3 =>
    expr_inj at he; obtain ⟨rfl, rfl⟩ := he
    rcases clean_num (WF.num_iff.1 (wf vb h2)) (hb _ h2) with ⟨rfl, _, e1⟩ | ⟨rfl, h0, _⟩
    · simpa using ha _ h1
    · rw [h3] at h0; cases h0
  | add h1 h2 _ h3 h4 =>
    expr_inj at he; obtain ⟨rfl, rfl⟩ := he
    obtain ⟨i, rfl, k1⟩ := (ha _ h1).pos h3
    obtain ⟨j, rfl, k2⟩ := (hb _ h2).pos h4
    exact .inr ⟨min i j, (Nat.mono_cast.map_min).symm, .add k1 k2⟩
  | _ => expr_inj at he

theorem agg_mul_clean {i j : ℕ∞} {a b e : Expr F} (h : Agg .strict (a.mul b) e) (va : WF SmartNum.Valid a)
    (vb : WF SmartNum.Valid b) (ha : ∀ a', Agg .strict a a' → Clean x i a') (hb : ∀ b', Agg .strict b b' → Clean x j b') :
    Clean x (i + j) e := by
  have wf : ∀ {a a' : Expr F}, WF SmartNum.Valid a → Agg .strict a a' → WF SmartNum.Valid a' :=
    fun v h => h.wf (numClosed_valid _) v
  generalize he : a.mul b = s at h
  cases h with
  | @mul_num a b u v w h1 h2 h3 =>
    expr_inj at he; obtain ⟨rfl, rfl⟩ := he
    have vu := WF.num_iff.1 (wf va h1)
    have vv := WF.num_iff.1 (wf vb h2)
    have vw : w.Valid := (numClosed_valid _).mul _ _ _ vu vv h3
    have ex := fun {p q : ℚ} (e1 : u.exact? = some p) (e2 : v.exact? = some q) =>
      SmartNum.mul_exact (m := .strict) (by simp) vu vv e1 e2 h3
    rcases clean_num vu (ha _ h1) with ⟨rfl, _, e1⟩ | ⟨rfl, _, p, e1, hp⟩ <;>
      rcases clean_num vv (hb _ h2) with ⟨rfl, _, e2⟩ | ⟨rfl, _, q, e2, hq⟩
    · simpa using clean_zero_of_exact vw (by simpa using ex e1 e2)
    · simpa using clean_zero_of_exact vw (by simpa using ex e1 e2)
    · simpa using clean_zero_of_exact vw (by simpa using ex e1 e2)
    · simpa using clean_of_exact (ex e1 e2) (mul_pos hp hq)
  | mul_zero_l h1 h2 h3 =>
    expr_inj at he; obtain ⟨rfl, rfl⟩ := he
    rcases clean_num (WF.num_iff.1 (wf va h1)) (ha _ h1) with ⟨rfl, _, e1⟩ | ⟨rfl, h0, _⟩
    · simpa using clean_ofI64_zero
    · rw [h3] at h0; cases h0
  | mul_zero_r h1 h2 h3 =>
    expr_inj at he; obtain ⟨rfl, rfl⟩ := he
    rcases clean_num (WF.num_iff.1 (wf vb h2)) (hb _ h2) with ⟨rfl, _, e1⟩ | ⟨rfl, h0, _⟩
    · simpa using clean_ofI64_zero
    · rw [h3] at h0; cases h0
  | mul_one_l h1 h2 h3 =>
    expr_inj at he; obtain ⟨rfl, rfl⟩ := he
    rcases clean_num (WF.num_iff.1 (wf va h1)) (ha _ h1) with ⟨rfl, h0, e1⟩ | ⟨rfl, h0, _⟩
    · exact ((WF.num_iff.1 (wf va h1)).not_zero_one h0 h3).elim
    · simpa using hb _ h2
  | mul_one_r h1 h2 h3 =>
    expr_inj at he; obtain ⟨rfl, rfl⟩ := he
    rcases clean_num (WF.num_iff.1 (wf vb h2)) (hb _ h2) with ⟨rfl, h0, e1⟩ | ⟨rfl, h0, _⟩
    · exact ((WF.num_iff.1 (wf vb h2)).not_zero_one h0 h3).elim
    · simpa using ha _ h1
  | mul h1 h2 _ h3 h4 =>
    expr_inj at he; obtain ⟨rfl, rfl⟩ := he
    obtain ⟨i, rfl, k1⟩ := (ha _ h1).pos h3
    obtain ⟨j, rfl, k2⟩ := (hb _ h2).pos h4
    exact .inr ⟨i + j, by simp, .mul k1 k2⟩
  | _ => expr_inj at he

/-- `num_aggregate` keeps the lowest power. -/
theorem PosPoly.agg_clean {i : ℕ} {e : Expr F} (he : WF SmartNum.Valid e) (h : PosPoly x i e) :
    ∀ e', Agg .strict e e' → Clean x i e' := by
  induction h with
  | num n q h1 h2 =>
    intro e' h
    obtain rfl := h.unique (.num _ trivial) (.num n)
    exact .inr ⟨0, rfl, .num n q h1 h2⟩
  | self =>
    intro e' h
    obtain rfl := h.unique (.var _) (.var x)
    exact .inr ⟨1, rfl, .self⟩
  | other v hv =>
    intro e' h
    obtain rfl := h.unique (.var _) (.var v)
    exact .inr ⟨0, rfl, .other v hv⟩
  | add _ _ i j =>
    intro e' h
    have := WF.add_iff.1 he
    rw [Nat.mono_cast.map_min]
    exact agg_add_clean h this.1 this.2 (i this.1) (j this.2)
  | mul _ _ i j =>
    intro e' h
    have := WF.mul_iff.1 he
    simpa using agg_mul_clean h this.1 this.2 (i this.1) (j this.2)

theorem PosPoly.agg {i : ℕ} {e e' : Expr F} (he : WF SmartNum.Valid e) (h : PosPoly x i e) (ha : Agg .strict e e') :
    PosPoly x i e' := by
  rcases h.agg_clean he e' ha with ⟨h, -⟩ | ⟨j, h, hp⟩
  · exact absurd h (by simp)
  · have : i = j := by exact_mod_cast h
    subst this; exact hp

theorem Clean.agg {i : ℕ∞} {e e' : Expr F} (he : WF SmartNum.Valid e) (h : Clean x i e) (ha : Agg .strict e e') :
    Clean x i e' := by
  rcases h with ⟨rfl, k, rfl, hk⟩ | ⟨j, rfl, hp⟩
  · obtain rfl := ha.unique (.num _ trivial) (.num k)
    exact .inl ⟨rfl, k, rfl, hk⟩
  · exact hp.agg_clean he _ ha

/-- `derivative` lowers the lowest power by one. -/
theorem PosPoly.der {i : ℕ} {e d : Expr F} (he : WF SmartNum.Valid e) (h : PosPoly x i e) (hd : Der .strict x e d) :
    ∃ j : ℕ∞, Clean x j d ∧ (1 ≤ i → j = ((i - 1 : ℕ) : ℕ∞)) := by
  have wf : ∀ {a a' : Expr F}, WF SmartNum.Valid a → Der .strict x a a' → WF SmartNum.Valid a' :=
    fun v h => h.wf (numClosed_valid _) v
  induction h generalizing d with
  | num n q h1 h2 =>
    generalize hs : (ofNum n : Expr F) = s at hd
    cases hd with
    | num => exact ⟨⊤, clean_ofI64_zero, by omega⟩
    | _ => expr_inj at hs
  | self =>
    generalize hs : (ofVar x : Expr F) = s at hd
    cases hd with
    | var => exact ⟨0, clean_of_exact (q := 1) (by rfl) one_pos, fun _ => rfl⟩
    | var_ne y hy => expr_inj at hs; exact absurd (congrArg Variable.mk hs) hy
    | _ => expr_inj at hs
  | other v hv =>
    generalize hs : (ofVar v : Expr F) = s at hd
    cases hd with
    | var => expr_inj at hs; exact absurd (congrArg Variable.mk hs.symm) hv
    | var_ne y hy => exact ⟨⊤, clean_ofI64_zero, by omega⟩
    | _ => expr_inj at hs
  | @add p q a b ha hb iha ihb =>
    generalize hs : a.add b = s at hd
    cases hd with
    | add h1 h2 h3 =>
      expr_inj at hs; obtain ⟨rfl, rfl⟩ := hs
      have hw := WF.add_iff.1 he
      obtain ⟨i', c1, k1⟩ := iha hw.1 h1
      obtain ⟨j', c2, k2⟩ := ihb hw.2 h2
      refine ⟨min i' j', agg_add_clean h3 (wf hw.1 h1) (wf hw.2 h2) (fun _ h => c1.agg (wf hw.1 h1) h)
        (fun _ h => c2.agg (wf hw.2 h2) h), fun h => ?_⟩
      rw [k1 (by omega), k2 (by omega), ← Nat.mono_cast.map_min]
      congr 1
      omega
    | _ => expr_inj at hs
  | @mul p q a b ha hb iha ihb =>
    generalize hs : a.mul b = s at hd
    cases hd with
    | @mul _ _ a' b' _ h1 h2 h3 =>
      expr_inj at hs; obtain ⟨rfl, rfl⟩ := hs
      have hw := WF.mul_iff.1 he
      obtain ⟨i', c1, k1⟩ := iha hw.1 h1
      obtain ⟨j', c2, k2⟩ := ihb hw.2 h2
      have w1 := wf hw.1 h1
      have w2 := wf hw.2 h2
      refine ⟨min (i' + q) (p + j'), agg_add_clean h3 (.mul _ _ w1 hw.2) (.mul _ _ hw.1 w2)
        (fun _ h => agg_mul_clean h w1 hw.2 (fun _ h => c1.agg w1 h) (hb.agg_clean hw.2))
        (fun _ h => agg_mul_clean h hw.1 w2 (ha.agg_clean hw.1) (fun _ h => c2.agg w2 h)), fun h => ?_⟩
      rcases Nat.eq_zero_or_pos p with rfl | hp
      · rw [k2 (by omega)]
        have : ((q - 1 : ℕ) : ℕ∞) ≤ i' + q := le_add_left (by exact_mod_cast Nat.sub_le q 1)
        simpa using this
      · rcases Nat.eq_zero_or_pos q with rfl | hq
        · rw [k1 (by omega)]
          have : ((p - 1 : ℕ) : ℕ∞) ≤ p + j' := le_add_right (by exact_mod_cast Nat.sub_le p 1)
          simpa using this
        · rw [k1 hp, k2 hq, ← Nat.cast_add, ← Nat.cast_add, ← Nat.mono_cast.map_min]
          congr 1
          omega
    | _ => expr_inj at hs

variable {pt : Expr F} {k : UInt64}

/-- What `limit` at 0 says about a positive polynomial. -/
theorem PosPoly.limit {i : ℕ} {e : Expr F} (he : WF SmartNum.Valid e) (h : PosPoly x i e) (hz : pt.isZero = true) (n : Nat) :
    limit .strict x pt k n e = .fuel ∨ limit .strict x pt k n e = .panic ∨
      (1 ≤ i ∧ limit .strict x pt k n e = .ok .infinitesimal) ∨
      (i = 0 ∧ ∃ c, limit .strict x pt k n e = .ok (.normal c) ∧ WF SmartNum.Valid c ∧ PosPoly x 0 c) := by
  have fin : ∀ {c : Expr F}, WF SmartNum.Valid c → PosPoly x 0 c → finish .strict (.normal c) = .panic ∨
      ∃ c', finish .strict (.normal c) = .ok (.normal c') ∧ WF SmartNum.Valid c' ∧ PosPoly x 0 c' := by
    intro c vc hc
    cases h : c.numAggregate .strict with
    | panic => left; simp [finish, h]
    | ok c' =>
      have ha := agg_of_numAggregate vc.tree h
      exact .inr ⟨c', by simp [finish, h], ha.wf (numClosed_valid _) vc, hc.agg vc ha⟩
  induction h generalizing n with
  | num v q h1 h2 =>
    cases n with
    | zero => exact .inl rfl
    | succ n => rw [limit_ofNum]; exact .inr (.inr (.inr ⟨rfl, _, rfl, he, .num v q h1 h2⟩))
  | self =>
    cases n with
    | zero => exact .inl rfl
    | succ n => rw [limit_ofVar]; simp only [if_true, hz]; exact .inr (.inr (.inl ⟨le_rfl, rfl⟩))
  | other v hv =>
    cases n with
    | zero => exact .inl rfl
    | succ n =>
      rw [limit_ofVar, if_neg (Ne.symm hv)]
      simp only [LOut.ok_bind]
      rcases fin he (.other v hv) with h | ⟨c, h, h1, h2⟩
      · exact .inr (.inl h)
      · exact .inr (.inr (.inr ⟨trivial, c, h, h1, h2⟩))
  | @add i j a b ha hb iha ihb =>
    have hw := WF.add_iff.1 he
    cases n with
    | zero => exact .inl rfl
    | succ n =>
      rw [limit_add]
      simp only [addBody]
      rcases ihb hw.2 n with h | h | ⟨hj, h⟩ | ⟨rfl, c, h, vc, pc⟩
      · rw [h]; exact .inl rfl
      · rw [h]; exact .inr (.inl rfl)
      · rcases iha hw.1 n with h' | h' | ⟨hi, h'⟩ | ⟨rfl, d, h', vd, pd⟩
        · rw [h, h']; exact .inl rfl
        · rw [h, h']; exact .inr (.inl rfl)
        · rw [h, h']; exact .inr (.inr (.inl ⟨by omega, rfl⟩))
        · rw [h, h']
          rcases fin vd pd with g | ⟨c', g, h1, h2⟩
          · exact .inr (.inl g)
          · exact .inr (.inr (.inr ⟨by omega, c', g, h1, h2⟩))
      · rcases iha hw.1 n with h' | h' | ⟨hi, h'⟩ | ⟨rfl, d, h', vd, pd⟩
        · rw [h, h']; exact .inl rfl
        · rw [h, h']; exact .inr (.inl rfl)
        · rw [h, h']
          rcases fin vc pc with g | ⟨c', g, h1, h2⟩
          · exact .inr (.inl g)
          · exact .inr (.inr (.inr ⟨by omega, c', g, h1, h2⟩))
        · rw [h, h']
          rcases fin (.add _ _ vd vc) (pd.add pc) with g | ⟨c', g, h1, h2⟩
          · exact .inr (.inl g)
          · exact .inr (.inr (.inr ⟨by omega, c', g, h1, h2⟩))
  | @mul i j a b ha hb iha ihb =>
    have hw := WF.mul_iff.1 he
    cases n with
    | zero => exact .inl rfl
    | succ n =>
      rw [limit_mul]
      simp only [mulBody]
      rcases ihb hw.2 n with h | h | ⟨hj, h⟩ | ⟨rfl, c, h, vc, pc⟩
      · rw [h]; exact .inl rfl
      · rw [h]; exact .inr (.inl rfl)
      · rcases iha hw.1 n with h' | h' | ⟨hi, h'⟩ | ⟨rfl, d, h', vd, pd⟩
        · rw [h, h']; exact .inl rfl
        · rw [h, h']; exact .inr (.inl rfl)
        · rw [h, h']; exact .inr (.inr (.inl ⟨by omega, rfl⟩))
        · rw [h, h']; exact .inr (.inr (.inl ⟨by omega, rfl⟩))
      · rcases iha hw.1 n with h' | h' | ⟨hi, h'⟩ | ⟨rfl, d, h', vd, pd⟩
        · rw [h, h']; exact .inl rfl
        · rw [h, h']; exact .inr (.inl rfl)
        · rw [h, h']; exact .inr (.inr (.inl ⟨by omega, rfl⟩))
        · rw [h, h']
          rcases fin (.mul _ _ vd vc) (pd.mul pc) with g | ⟨c', g, h1, h2⟩
          · exact .inr (.inl g)
          · exact .inr (.inr (.inr ⟨rfl, c', g, h1, h2⟩))

theorem PosPoly.not_zero {i : ℕ} {e : Expr F} (he : WF SmartNum.Valid e) (h : PosPoly x i e) : e.isZero = false := by
  cases h with
  | num n q h1 h2 =>
    rw [isZero_ofNum]
    have hn := WF.num_iff.1 he
    cases h0 : n.isZero with
    | false => rfl
    | true => rw [hn.zero_iff.1 h0] at h1; cases h1; exact absurd h2 (lt_irrefl _)
  | _ => rfl

/-- The answer of the L'Hôpital loop. -/
theorem PosPoly.divLoop (hz : pt.isZero = true) (n N : Nat) {i j : ℕ} {l r : Expr F} (hl : WF SmartNum.Valid l)
    (hr : WF SmartNum.Valid r) (h1 : PosPoly x i l) (h2 : PosPoly x j r) :
    let o := divLoop .strict (Expr.limit .strict x pt k n) x N l r
    o = .fuel ∨ o = .panic ∨ (N ≤ min i j ∧ o = .err) ∨ (min i j < N ∧
      ((j < i ∧ o = .ok .infinitesimal) ∨ (i < j ∧ o = .ok .infinity) ∨ (i = j ∧ ∃ c d,
        o = .ok (.normal (c.div d)) ∧ WF SmartNum.Valid c ∧ WF SmartNum.Valid d ∧ PosPoly x 0 c ∧ PosPoly x 0 d))) := by
  induction N generalizing i j l r with
  | zero => exact .inr (.inr (.inl ⟨Nat.zero_le _, rfl⟩))
  | succ N ih =>
    intro o
    simp only [o, Expr.divLoop]
    rcases h1.limit (k := k) hl hz n with h | h | ⟨hi, h⟩ | ⟨rfl, c, h, vc, pc⟩
    · rw [h]; exact .inl rfl
    · rw [h]; exact .inr (.inl rfl)
    · rcases h2.limit (k := k) hr hz n with h' | h' | ⟨hj, h'⟩ | ⟨rfl, d, h', vd, pd⟩
      · rw [h, h']; exact .inl rfl
      · rw [h, h']; exact .inr (.inl rfl)
      · rw [h, h']
        simp only [LOut.ok_bind, LimitExpression.div]
        cases e1 : l.derivative .strict x with
        | err e => exact (derivative_no_err hl.tree e e1).elim
        | panic => exact .inr (.inl rfl)
        | ok l' =>
          cases e2 : r.derivative .strict x with
          | err e => exact (derivative_no_err hr.tree e e2).elim
          | panic => exact .inr (.inl rfl)
          | ok r' =>
            have d1 := der_of_derivative hl.tree e1
            have d2 := der_of_derivative hr.tree e2
            have low : ∀ {i : ℕ} {e e' : Expr F}, 1 ≤ i → WF SmartNum.Valid e → PosPoly x i e → Der .strict x e e' →
                PosPoly x (i - 1) e' := by
              intro i e e' hi he hp hd
              obtain ⟨j, hc, hj⟩ := hp.der he hd
              rw [hj hi] at hc
              rcases hc with ⟨h, -⟩ | ⟨j, h, hp⟩
              · exact absurd h (by simp)
              · have : i - 1 = j := by exact_mod_cast h
                rw [this]; exact hp
            have := ih (d1.wf (numClosed_valid _) hl) (d2.wf (numClosed_valid _) hr) (low hi hl h1 d1) (low hj hr h2 d2)
            simp only [LOut.ofOut_ok, LOut.ok_bind]
            rcases this with h | h | ⟨g, h⟩ | ⟨g, h⟩
            · exact .inl h
            · exact .inr (.inl h)
            · exact .inr (.inr (.inl ⟨by omega, h⟩))
            · refine .inr (.inr (.inr ⟨by omega, ?_⟩))
              rcases h with ⟨g, h⟩ | ⟨g, h⟩ | ⟨g, h⟩
              · exact .inl ⟨by omega, h⟩
              · exact .inr (.inl ⟨by omega, h⟩)
              · exact .inr (.inr ⟨by omega, h⟩)
      · rw [h, h']
        simp only [LOut.ok_bind, LimitExpression.div, pd.not_zero vd]
        exact .inr (.inr (.inr ⟨by omega, .inl ⟨by omega, rfl⟩⟩))
    · rcases h2.limit (k := k) hr hz n with h' | h' | ⟨hj, h'⟩ | ⟨rfl, d, h', vd, pd⟩
      · rw [h, h']; exact .inl rfl
      · rw [h, h']; exact .inr (.inl rfl)
      · rw [h, h']
        simp only [LOut.ok_bind, LimitExpression.div, pc.not_zero vc]
        exact .inr (.inr (.inr ⟨by omega, .inr (.inl ⟨by omega, rfl⟩)⟩))
      · rw [h, h']
        exact .inr (.inr (.inr ⟨by omega, .inr (.inr ⟨rfl, c, d, rfl, vc, vd, pc, pd⟩)⟩))

theorem exactReal_of_exact {n : SmartNum F} {q : ℚ} (h : n.exact? = some q) (hn : n.Valid) : n.exactReal = some (q : ℝ) := by
  have h1 : n.isPi = false := by
    cases h1 : n.isPi with
    | false => rfl
    | true => rw [SmartNum.exact?, hn.pi_val h1] at h; cases h
  have h2 : n.isE = false := by
    cases h1 : n.isE with
    | false => rfl
    | true => rw [SmartNum.exact?, hn.e_val h1] at h; cases h
  cases n with
  | mk v t => cases t <;> simp_all [SmartNum.exactReal, SmartNum.isPi, SmartNum.isE]

/-- The value of a positive polynomial is `t^i` times a continuous function that is positive at 0. -/
theorem PosPoly.value {ν : SmartNum F → Option ℝ} (hν : ∀ n : SmartNum F, n.Valid → ∀ q : ℚ, n.exact? = some q → ν n = some (q : ℝ))
    {i : ℕ} {e : Expr F} (he : WF SmartNum.Valid e) (h : PosPoly x i e) {env : Env}
    (hp : ∀ v, 0 < env v) : ∃ g : ℝ → ℝ, Continuous g ∧ 0 < g 0 ∧
      ∀ t, denote ν (env.set x t) e = some (t ^ i * g t) := by
  induction h with
  | num n q h1 h2 =>
    refine ⟨fun _ => q, continuous_const, by simpa using h2, fun t => ?_⟩
    rw [denote_ofNum, hν _ (WF.num_iff.1 he) q h1]; simp
  | self => exact ⟨fun _ => 1, continuous_const, one_pos, fun t => by rw [denote_ofVar]; simp⟩
  | other v hv =>
    exact ⟨fun _ => env v, continuous_const, hp v, fun t => by rw [denote_ofVar, Env.set_ne _ _ (Ne.symm hv)]; simp⟩
  | @add i j a b ha hb iha ihb =>
    have hw := WF.add_iff.1 he
    obtain ⟨g, cg, pg, vg⟩ := iha hw.1
    obtain ⟨h, ch, ph, vh⟩ := ihb hw.2
    refine ⟨fun t => t ^ (i - min i j) * g t + t ^ (j - min i j) * h t, by fun_prop, ?_, fun t => ?_⟩
    · show 0 < (0:ℝ) ^ (i - min i j) * g 0 + (0:ℝ) ^ (j - min i j) * h 0
      rcases le_total i j with hij | hij
      · rw [min_eq_left hij, Nat.sub_self, pow_zero, one_mul]
        exact add_pos_of_pos_of_nonneg pg (mul_nonneg (by positivity) ph.le)
      · rw [min_eq_right hij, Nat.sub_self, pow_zero, one_mul]
        exact add_pos_of_nonneg_of_pos (mul_nonneg (by positivity) pg.le) ph
    · refine denote_add.2 ⟨_, _, vg t, vh t, ?_⟩
      rw [mul_add, ← mul_assoc, ← mul_assoc, ← pow_add, ← pow_add, Nat.add_sub_cancel' (min_le_left i j),
        Nat.add_sub_cancel' (min_le_right i j)]
  | @mul i j a b ha hb iha ihb =>
    have hw := WF.mul_iff.1 he
    obtain ⟨g, cg, pg, vg⟩ := iha hw.1
    obtain ⟨h, ch, ph, vh⟩ := ihb hw.2
    exact ⟨fun t => g t * h t, cg.mul ch, mul_pos pg ph, fun t => denote_mul.2 ⟨_, _, vg t, vh t, by rw [pow_add]; ring⟩⟩

theorem PosPoly.nth {i q : ℕ} {e d : Expr F} (he : WF SmartNum.Valid e) (h : PosPoly x i e) (hq : q ≤ i)
    (hd : nthDerivative .strict e x q = .ok d) : WF SmartNum.Valid d ∧ PosPoly x (i - q) d := by
  induction q generalizing d with
  | zero => cases hd; exact ⟨he, h⟩
  | succ q ih =>
    obtain ⟨d', h1, h2⟩ := Out.bind_eq_ok.1 hd
    obtain ⟨v, hp⟩ := ih (by omega) h1
    have hd := der_of_derivative v.tree h2
    refine ⟨hd.wf (numClosed_valid _) v, ?_⟩
    obtain ⟨j, hc, hj⟩ := hp.der v hd
    rw [hj (by omega)] at hc
    rcases hc with ⟨h, -⟩ | ⟨j, h, hp⟩
    · exact absurd h (by simp)
    · have : i - q - 1 = j := by exact_mod_cast h
      rw [show i - (q + 1) = j by omega]; exact hp

theorem nthDerivative_prefix {m : Mode} {e d : Expr F} {i q : ℕ} (hq : q ≤ i) (h : nthDerivative m e x i = .ok d) :
    ∃ d', nthDerivative m e x q = .ok d' := by
  induction i generalizing d with
  | zero => obtain rfl : q = 0 := by omega
            exact ⟨d, h⟩
  | succ i ih =>
    rcases Nat.eq_or_lt_of_le hq with rfl | hq
    · exact ⟨d, h⟩
    · obtain ⟨d', h1, -⟩ := Out.bind_eq_ok.1 h
      exact ih (by omega) h1

theorem PosPoly.lift {i : ℕ} {e : Expr F} (he : WF SmartNum.Valid e) (h : PosPoly x i e) : PosPoly x i e.lift := by
  induction h with
  | num n q h1 h2 =>
    have hn := WF.num_iff.1 he
    have : n.lift.exact? = some q := by
      rw [← h1]
      conv_rhs => rw [← SmartNum.map_lift hn]
      rw [SmartNum.exact?_map]
    simpa [Expr.lift] using PosPoly.num (x := x) n.lift q this h2
  | self => simpa [Expr.lift] using PosPoly.self
  | other v hv => simpa [Expr.lift] using PosPoly.other v hv
  | add _ _ i j => have := WF.add_iff.1 he; simpa [Expr.lift] using (i this.1).add (j this.2)
  | mul _ _ i j => have := WF.mul_iff.1 he; simpa [Expr.lift] using (i this.1).mul (j this.2)

end SymRust

namespace SymRust
open Expr Filter Topology
variable {F : Type} [ExactFloat F] {x : Variable} {env : Env} {pt l r : Expr F} {k : UInt64} {n : Nat} {z : LimitExpression F}

theorem PosPoly.quotient {i : ℕ} (hpt : denote SmartNum.value? env pt = some 0) (wp : WF SmartNum.Valid pt)
    (sp : Safe SmartNum.value? Set.univ pt) (hz : pt.isZero = true) (hp : ∀ v, 0 < env v) (hl : Regular env x pt 0 l)
    (hr : Regular env x pt 0 r) (pl : PosPoly x i l) (pr : PosPoly x i r)
    (h : Expr.limit .strict x pt k n (l.div r) = .ok z) :
    ∃ w, Means env w z ∧ Tendsto (fun t => fn SmartNum.value? env x l t / fn SmartNum.value? env x r t) (𝓝[≠] 0) (𝓝 w) := by
  obtain ⟨q, hq, li, ri, a, b, g1, g2, g3, g4, ma, mb, ⟨w, hw, hf⟩, h0⟩ := lhopital_steps hpt wp sp hl hr h
  have pos : ∀ {d : Expr F}, nthDerivative .strict r x i = .ok d → iteratedDeriv i (fn SmartNum.value? env x r) 0 ≠ 0 := by
    intro d hd
    obtain ⟨v, p⟩ := pr.nth hr.wf le_rfl hd
    obtain ⟨g, -, pg, hg⟩ := p.value (ν := SmartNum.value?)
      (fun n _ q hq => SmartNum.value?_iff.2 (.inl ⟨q, hq, rfl⟩)) v hp
    have h1 := (hr.derivative i hd).2
    rw [hg 0] at h1
    simp only [Nat.sub_self, pow_zero, one_mul, Option.some.injEq] at h1
    rw [← h1]; exact pg.ne'
  have hqi : q = i := by
    rcases lt_trichotomy q i with hlt | rfl | hlt
    · exfalso
      have inf : ∀ {e d : Expr F} {a : LimitExpression F}, WF SmartNum.Valid e → PosPoly x i e → nthDerivative .strict e x q = .ok d →
          Expr.limit .strict x pt k (n - 1) d = .ok a → a = .infinitesimal := by
        intro e d a ve pe hd ha
        obtain ⟨v, p⟩ := pe.nth ve hlt.le hd
        rcases p.limit (k := k) v hz (n - 1) with h | h | ⟨-, h⟩ | ⟨h0, -⟩
        · rw [h] at ha; cases ha
        · rw [h] at ha; cases ha
        · rw [h] at ha; cases ha; rfl
        · omega
      rw [inf hl.wf pl g1 g3, inf hr.wf pr g2 g4] at hw
      cases hw
    · rfl
    · obtain ⟨d, hd⟩ := nthDerivative_prefix hlt.le g2
      exact absurd (h0 i hlt).2 (pos hd)
  subst hqi
  obtain ⟨w', hw', hm⟩ := div_means ma mb (pos g2)
  rw [hw] at hw'; cases hw'
  exact ⟨_, finish_means hm hf, quotient_tendsto hl hr h0 (pos g2)⟩

end SymRust
