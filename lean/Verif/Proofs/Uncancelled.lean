import Verif.Spec.Uncancelled
import Verif.Proofs.PosPoly
import Mathlib.Algebra.Polynomial.Eval.Degree
import Mathlib.Topology.Algebra.Polynomial
/-! Polynomials without cancellation: `derivative` lowers the terms, `limit` at 0 sees the constant ones. -/

namespace SymRust
variable {F : Type} {σ : Signs} {x : Variable}
open Expr

abbrev Pat := Set (SignType × ℕ)

def terms (σ : Signs) (x : Variable) (e : Expr F) : Pat := {p | HasTerm σ x p.1 p.2 e}

def Pat.CF (T : Pat) : Prop := ∀ s t d, (s, d) ∈ T → (t, d) ∈ T → s = t

def Pat.mul (T U : Pat) : Pat := {p | ∃ s t i j, (s, i) ∈ T ∧ (t, j) ∈ U ∧ p = (s * t, i + j)}

def Pat.der (T : Pat) : Pat := {p | (p.1, p.2 + 1) ∈ T}

theorem Pat.CF.mono {T U : Pat} (h : U.CF) (hs : T ⊆ U) : T.CF := fun _ _ _ h1 h2 => h _ _ _ (hs h1) (hs h2)

theorem Pat.CF.der {T : Pat} (h : T.CF) : T.der.CF := fun _ _ _ h1 h2 => h _ _ _ h1 h2

theorem terms_num {n : SmartNum F} {q : ℚ} (h : n.exact? = some q) (hq : q ≠ 0) :
    terms σ x (ofNum n) = {(SignType.sign q, 0)} := by
  ext ⟨s, d⟩
  simp only [terms, Set.mem_ofPred_eq, Set.mem_singleton_iff, Prod.mk.injEq]
  constructor
  · intro h'
    generalize he : (ofNum n : Expr F) = e at h'
    cases h' with
    | num n' q' h1 h2 => expr_inj at he; subst he; rw [h] at h1; cases h1; exact ⟨rfl, rfl⟩
    | _ => expr_inj at he
  · rintro ⟨rfl, rfl⟩; exact .num n q h hq

theorem terms_self : terms σ x (ofVar x : Expr F) = {(1, 1)} := by
  ext ⟨s, d⟩
  simp only [terms, Set.mem_ofPred_eq, Set.mem_singleton_iff, Prod.mk.injEq]
  constructor
  · intro h'
    generalize he : (ofVar x : Expr F) = e at h'
    cases h' with
    | self => exact ⟨rfl, rfl⟩
    | other v hv => expr_inj at he; exact absurd (congrArg Variable.mk he) hv
    | _ => expr_inj at he
  · rintro ⟨rfl, rfl⟩; exact .self

theorem terms_other {v : Variable} (h : x ≠ v) : terms σ x (ofVar v : Expr F) = {(σ.sign v, 0)} := by
  ext ⟨s, d⟩
  simp only [terms, Set.mem_ofPred_eq, Set.mem_singleton_iff, Prod.mk.injEq]
  constructor
  · intro h'
    generalize he : (ofVar v : Expr F) = e at h'
    cases h' with
    | self => expr_inj at he; exact absurd (congrArg Variable.mk he.symm) h
    | other w hw =>
      expr_inj at he
      have he := congrArg Variable.mk he
      obtain rfl : v = w := he
      exact ⟨rfl, rfl⟩
    | _ => expr_inj at he
  · rintro ⟨rfl, rfl⟩; exact .other v h

theorem terms_add {a b : Expr F} : terms σ x (a.add b) = terms σ x a ∪ terms σ x b := by
  ext ⟨s, d⟩
  constructor
  · intro h'
    replace h' : HasTerm σ x s d (a.add b) := h'
    generalize he : a.add b = e at h'
    cases h' with
    | left h => expr_inj at he; obtain ⟨rfl, rfl⟩ := he; exact .inl h
    | right h => expr_inj at he; obtain ⟨rfl, rfl⟩ := he; exact .inr h
    | _ => expr_inj at he
  · rintro (h | h)
    · exact HasTerm.left h
    · exact HasTerm.right h

theorem terms_mul {a b : Expr F} : terms σ x (a.mul b) = (terms σ x a).mul (terms σ x b) := by
  ext ⟨s, d⟩
  constructor
  · intro h'
    replace h' : HasTerm σ x s d (a.mul b) := h'
    generalize he : a.mul b = e at h'
    cases h' with
    | mul h g => expr_inj at he; obtain ⟨rfl, rfl⟩ := he; exact ⟨_, _, _, _, h, g, rfl⟩
    | _ => expr_inj at he
  · rintro ⟨_, _, _, _, h, g, he⟩
    cases he
    exact HasTerm.mul h g

theorem Pat.one_mul' (T : Pat) : Pat.mul {(1, 0)} T = T := by
  ext ⟨s, d⟩
  constructor
  · rintro ⟨s', t, i, j, h, g, he⟩
    cases h; cases he; simpa using g
  · intro h; exact ⟨1, s, 0, d, rfl, h, by simp⟩

theorem Pat.mul_comm' (T U : Pat) : T.mul U = U.mul T := by
  ext ⟨s, d⟩
  constructor <;> rintro ⟨s', t, i, j, h, g, he⟩ <;> exact ⟨t, s', j, i, g, h, by rw [he, mul_comm, add_comm]⟩

theorem Pat.empty_mul (T : Pat) : Pat.mul ∅ T = ∅ := by
  ext ⟨s, d⟩
  exact ⟨fun ⟨_, _, _, _, h, _⟩ => h.elim, fun h => h.elim⟩

theorem Pat.single_mul (s t : SignType) (i j : ℕ) : Pat.mul {(s, i)} {(t, j)} = {(s * t, i + j)} := by
  ext p
  constructor
  · rintro ⟨s', t', i', j', h, g, he⟩
    cases h; cases g; exact he
  · intro h; exact ⟨s, t, i, j, rfl, rfl, h⟩

theorem Pat.der_mul (T U : Pat) : (T.mul U).der = T.der.mul U ∪ T.mul U.der := by
  ext ⟨s, d⟩
  constructor
  · rintro ⟨s', t, i, j, h, g, he⟩
    obtain ⟨rfl, h2⟩ := Prod.mk.inj he
    cases i with
    | succ i => exact .inl ⟨s', t, i, j, h, g, by rw [Prod.mk.injEq]; exact ⟨rfl, by omega⟩⟩
    | zero =>
      cases j with
      | succ j => exact .inr ⟨s', t, 0, j, h, g, by rw [Prod.mk.injEq]; exact ⟨rfl, by omega⟩⟩
      | zero => simp at h2
  · rintro (⟨s', t, i, j, h, g, he⟩ | ⟨s', t, i, j, h, g, he⟩) <;> obtain ⟨rfl, rfl⟩ := Prod.mk.inj he
    · exact ⟨s', t, i + 1, j, h, g, by rw [Prod.mk.injEq]; exact ⟨rfl, by omega⟩⟩
    · exact ⟨s', t, i, j + 1, h, g, by rw [Prod.mk.injEq]; exact ⟨rfl, by omega⟩⟩

theorem HasTerm.sign_ne {s : SignType} {d : ℕ} {e : Expr F} (h : HasTerm σ x s d e) : s ≠ 0 := by
  induction h with
  | num n q h1 h2 => exact sign_ne_zero.2 h2
  | self => exact one_ne_zero
  | other v => exact σ.ne v
  | left _ i => exact i
  | right _ i => exact i
  | mul _ _ i j => exact mul_ne_zero i j

theorem PolyForm.nonempty {e : Expr F} (h : PolyForm e) (σ : Signs) (x : Variable) : (terms σ x e).Nonempty := by
  induction h with
  | num n q h1 h2 => exact ⟨(_, _), HasTerm.num n q h1 h2⟩
  | var v =>
    by_cases hv : x = v
    · subst hv; exact ⟨(1, 1), HasTerm.self⟩
    · exact ⟨(_, 0), HasTerm.other v hv⟩
  | add _ _ i => obtain ⟨p, hp⟩ := i; exact ⟨p, HasTerm.left hp⟩
  | mul _ _ i j => obtain ⟨p, hp⟩ := i; obtain ⟨q, hq⟩ := j; exact ⟨(_, _), HasTerm.mul hp hq⟩

theorem sign_cancel : ∀ s s' t : SignType, t ≠ 0 → s * t = s' * t → s = s' := by decide

theorem cf_left {a b : Expr F} (h : (terms σ x (a.add b)).CF) : (terms σ x a).CF := h.mono (by rw [terms_add]; exact Set.subset_union_left)

theorem cf_right {a b : Expr F} (h : (terms σ x (a.add b)).CF) : (terms σ x b).CF := h.mono (by rw [terms_add]; exact Set.subset_union_right)

theorem cf_mul_left {a b : Expr F} (hb : PolyForm b) (h : (terms σ x (a.mul b)).CF) : (terms σ x a).CF := by
  obtain ⟨⟨t, j⟩, ht⟩ := hb.nonempty σ x
  intro s s' d h1 h2
  have := h _ _ (d + j) (HasTerm.mul h1 ht) (HasTerm.mul h2 ht)
  have t0 := HasTerm.sign_ne ht
  exact sign_cancel _ _ _ t0 this

theorem cf_mul_right {a b : Expr F} (ha : PolyForm a) (h : (terms σ x (a.mul b)).CF) : (terms σ x b).CF := by
  obtain ⟨⟨t, j⟩, ht⟩ := ha.nonempty σ x
  intro s s' d h1 h2
  have := h _ _ (j + d) (HasTerm.mul ht h1) (HasTerm.mul ht h2)
  have t0 := HasTerm.sign_ne ht
  exact sign_cancel _ _ _ t0 (by simpa only [mul_comm] using this)

variable [FloatOps F]

/-- A polynomial with the terms `T`, or (`T` empty) a number that is 0. -/
def Rep (σ : Signs) (x : Variable) (T : Pat) (e : Expr F) : Prop :=
  (T = ∅ ∧ ∃ k : SmartNum F, e = ofNum k ∧ k.isZero = true) ∨ (PolyForm e ∧ terms σ x e = T)

omit [FloatOps F] in
theorem polyForm_num {n : SmartNum F} (h : PolyForm (ofNum n)) : ∃ q, n.exact? = some q ∧ q ≠ 0 := by
  generalize he : (ofNum n : Expr F) = e at h
  cases h with
  | num n' q h1 h2 => expr_inj at he; subst he; exact ⟨q, h1, h2⟩
  | _ => expr_inj at he

theorem rep_num {T : Pat} {n : SmartNum F} (hn : n.Valid) (h : Rep σ x T (ofNum n)) :
    (T = ∅ ∧ n.isZero = true ∧ n.exact? = some 0) ∨
      (∃ q, T = {(SignType.sign q, 0)} ∧ n.isZero = false ∧ n.exact? = some q ∧ q ≠ 0) := by
  rcases h with ⟨rfl, k, hk, h0⟩ | ⟨h, rfl⟩
  · expr_inj at hk; subst hk; exact .inl ⟨rfl, h0, hn.zero_iff.1 h0⟩
  · obtain ⟨q, h1, h2⟩ := polyForm_num h
    refine .inr ⟨q, terms_num h1 h2, ?_, h1, h2⟩
    cases h0 : n.isZero with
    | false => rfl
    | true => rw [hn.zero_iff.1 h0] at h1; cases h1; exact absurd rfl h2

omit [FloatOps F] in
theorem rep_ofI64_zero : Rep σ x ∅ (ofI64 0 : Expr F) := .inl ⟨rfl, _, rfl, rfl⟩

omit [FloatOps F] in
theorem rep_of_exact {n : SmartNum F} {q : ℚ} (h : n.exact? = some q) (hq : q ≠ 0) : Rep σ x {(SignType.sign q, 0)} (ofNum n) :=
  .inr ⟨.num n q h hq, terms_num h hq⟩

theorem rep_zero_of_exact {n : SmartNum F} (hn : n.Valid) (h : n.exact? = some 0) : Rep σ x ∅ (ofNum n) :=
  .inl ⟨rfl, n, rfl, hn.zero_iff.2 h⟩

omit [FloatOps F] in
theorem Rep.poly {T : Pat} {e : Expr F} (h : Rep σ x T e) (h0 : e.isZero = false) : PolyForm e ∧ terms σ x e = T := by
  rcases h with ⟨rfl, k, rfl, hz⟩ | h
  · rw [isZero_ofNum, hz] at h0; cases h0
  · exact h

theorem sign_add_same {p q : ℚ} (hp : p ≠ 0) (_ : q ≠ 0) (h : SignType.sign p = SignType.sign q) :
    p + q ≠ 0 ∧ SignType.sign (p + q) = SignType.sign p := by
  rcases lt_or_gt_of_ne hp with hp | hp
  · rw [sign_neg hp] at h
    have hq := sign_eq_neg_one_iff.1 h.symm
    exact ⟨(add_neg hp hq).ne, by rw [sign_neg (add_neg hp hq), sign_neg hp]⟩
  · rw [sign_pos hp] at h
    have hq := sign_eq_one_iff.1 h.symm
    exact ⟨(add_pos hp hq).ne', by rw [sign_pos (add_pos hp hq), sign_pos hp]⟩

theorem agg_add_rep {T U : Pat} {a b e : Expr F} (h : Agg .strict (a.add b) e) (va : WF SmartNum.Valid a)
    (vb : WF SmartNum.Valid b) (cf : Pat.CF (T ∪ U)) (ha : ∀ a', Agg .strict a a' → Rep σ x T a')
    (hb : ∀ b', Agg .strict b b' → Rep σ x U b') : Rep σ x (T ∪ U) e := by
  have wf : ∀ {a a' : Expr F}, WF SmartNum.Valid a → Agg .strict a a' → WF SmartNum.Valid a' :=
    fun v h => h.wf (numClosed_valid _) v
  generalize he : a.add b = s at h
  cases h with
  | @add_num a b u v w h1 h2 h3 =>
    expr_inj at he; obtain ⟨rfl, rfl⟩ := he
    have vu := WF.num_iff.1 (wf va h1)
    have vv := WF.num_iff.1 (wf vb h2)
    have vw : w.Valid := (numClosed_valid _).add _ _ _ vu vv h3
    rcases rep_num vu (ha _ h1) with ⟨rfl, _, e1⟩ | ⟨p, rfl, _, e1, hp⟩ <;>
      rcases rep_num vv (hb _ h2) with ⟨rfl, _, e2⟩ | ⟨q, rfl, _, e2, hq⟩
    · simpa using rep_zero_of_exact vw (by simpa using SmartNum.add_exact vu vv e1 e2 h3)
    · simpa using rep_of_exact (by simpa using SmartNum.add_exact vu vv e1 e2 h3) hq
    · simpa using rep_of_exact (by simpa using SmartNum.add_exact vu vv e1 e2 h3) hp
    · have hs : SignType.sign p = SignType.sign q := cf _ _ 0 (.inl rfl) (.inr rfl)
      obtain ⟨h0, h1⟩ := sign_add_same hp hq hs
      have := rep_of_exact (σ := σ) (x := x) (SmartNum.add_exact vu vv e1 e2 h3) h0
      rw [h1] at this
      rw [← hs, Set.union_self]; exact this
  | add_zero_l h1 h2 h3 =>
    expr_inj at he; obtain ⟨rfl, rfl⟩ := he
    rcases rep_num (WF.num_iff.1 (wf va h1)) (ha _ h1) with ⟨rfl, _, e1⟩ | ⟨_, _, h0, _⟩
    · simpa using hb _ h2
    · rw [h3] at h0; cases h0
  | add_zero_r h1 h2 h3 =>
    expr_inj at he; obtain ⟨rfl, rfl⟩ := he
    rcases rep_num (WF.num_iff.1 (wf vb h2)) (hb _ h2) with ⟨rfl, _, e1⟩ | ⟨_, _, h0, _⟩
    · simpa using ha _ h1
    · rw [h3] at h0; cases h0
  | add h1 h2 _ h3 h4 =>
    expr_inj at he; obtain ⟨rfl, rfl⟩ := he
    obtain ⟨p1, rfl⟩ := (ha _ h1).poly h3
    obtain ⟨p2, rfl⟩ := (hb _ h2).poly h4
    exact .inr ⟨.add p1 p2, terms_add⟩
  | _ => expr_inj at he

theorem agg_mul_rep {T U : Pat} {a b e : Expr F} (h : Agg .strict (a.mul b) e) (va : WF SmartNum.Valid a)
    (vb : WF SmartNum.Valid b) (ha : ∀ a', Agg .strict a a' → Rep σ x T a')
    (hb : ∀ b', Agg .strict b b' → Rep σ x U b') : Rep σ x (T.mul U) e := by
  have wf : ∀ {a a' : Expr F}, WF SmartNum.Valid a → Agg .strict a a' → WF SmartNum.Valid a' :=
    fun v h => h.wf (numClosed_valid _) v
  have em : Pat.mul T ∅ = ∅ := by rw [Pat.mul_comm', Pat.empty_mul]
  generalize he : a.mul b = s at h
  cases h with
  | @mul_num a b u v w h1 h2 h3 =>
    expr_inj at he; obtain ⟨rfl, rfl⟩ := he
    have vu := WF.num_iff.1 (wf va h1)
    have vv := WF.num_iff.1 (wf vb h2)
    have vw : w.Valid := (numClosed_valid _).mul _ _ _ vu vv h3
    have ex := fun {p q : ℚ} (e1 : u.exact? = some p) (e2 : v.exact? = some q) =>
      SmartNum.mul_exact (m := .strict) (by simp) vu vv e1 e2 h3
    rcases rep_num vu (ha _ h1) with ⟨rfl, _, e1⟩ | ⟨p, rfl, _, e1, hp⟩ <;>
      rcases rep_num vv (hb _ h2) with ⟨rfl, _, e2⟩ | ⟨q, rfl, _, e2, hq⟩
    · rw [em]; exact rep_zero_of_exact vw (by simpa using ex e1 e2)
    · rw [Pat.empty_mul]; exact rep_zero_of_exact vw (by simpa using ex e1 e2)
    · rw [em]; exact rep_zero_of_exact vw (by simpa using ex e1 e2)
    · rw [Pat.single_mul, ← sign_mul]; exact rep_of_exact (ex e1 e2) (mul_ne_zero hp hq)
  | mul_zero_l h1 h2 h3 =>
    expr_inj at he; obtain ⟨rfl, rfl⟩ := he
    rcases rep_num (WF.num_iff.1 (wf va h1)) (ha _ h1) with ⟨rfl, _, e1⟩ | ⟨_, _, h0, _⟩
    · rw [Pat.empty_mul]; exact rep_ofI64_zero
    · rw [h3] at h0; cases h0
  | mul_zero_r h1 h2 h3 =>
    expr_inj at he; obtain ⟨rfl, rfl⟩ := he
    rcases rep_num (WF.num_iff.1 (wf vb h2)) (hb _ h2) with ⟨rfl, _, e1⟩ | ⟨_, _, h0, _⟩
    · rw [em]; exact rep_ofI64_zero
    · rw [h3] at h0; cases h0
  | mul_one_l h1 h2 h3 =>
    expr_inj at he; obtain ⟨rfl, rfl⟩ := he
    rcases rep_num (WF.num_iff.1 (wf va h1)) (ha _ h1) with ⟨rfl, h0, e1⟩ | ⟨q, rfl, h0, e1, _⟩
    · exact ((WF.num_iff.1 (wf va h1)).not_zero_one h0 h3).elim
    · rw [(WF.num_iff.1 (wf va h1)).one_iff.1 h3] at e1; cases e1
      rw [sign_one, Pat.one_mul']; exact hb _ h2
  | mul_one_r h1 h2 h3 =>
    expr_inj at he; obtain ⟨rfl, rfl⟩ := he
    rcases rep_num (WF.num_iff.1 (wf vb h2)) (hb _ h2) with ⟨rfl, h0, e1⟩ | ⟨q, rfl, h0, e1, _⟩
    · exact ((WF.num_iff.1 (wf vb h2)).not_zero_one h0 h3).elim
    · rw [(WF.num_iff.1 (wf vb h2)).one_iff.1 h3] at e1; cases e1
      rw [sign_one, Pat.mul_comm', Pat.one_mul']; exact ha _ h1
  | mul h1 h2 _ h3 h4 =>
    expr_inj at he; obtain ⟨rfl, rfl⟩ := he
    obtain ⟨p1, rfl⟩ := (ha _ h1).poly h3
    obtain ⟨p2, rfl⟩ := (hb _ h2).poly h4
    exact .inr ⟨.mul p1 p2, terms_mul⟩
  | _ => expr_inj at he

/-- `num_aggregate` keeps the terms. -/
theorem PolyForm.agg_rep {e : Expr F} (he : WF SmartNum.Valid e) (h : PolyForm e) (cf : (terms σ x e).CF) :
    ∀ e', Agg .strict e e' → Rep σ x (terms σ x e) e' := by
  induction h with
  | num n q h1 h2 =>
    intro e' h
    obtain rfl := h.unique (.num _ trivial) (.num n)
    exact .inr ⟨.num n q h1 h2, rfl⟩
  | var v =>
    intro e' h
    obtain rfl := h.unique (.var _) (.var v)
    exact .inr ⟨.var v, rfl⟩
  | add _ _ i j =>
    intro e' h
    have := WF.add_iff.1 he
    have cf' := cf
    rw [terms_add] at cf' ⊢
    exact agg_add_rep h this.1 this.2 cf' (i this.1 (cf_left cf)) (j this.2 (cf_right cf))
  | mul ha hb i j =>
    intro e' h
    have := WF.mul_iff.1 he
    rw [terms_mul]
    exact agg_mul_rep h this.1 this.2 (i this.1 (cf_mul_left hb cf)) (j this.2 (cf_mul_right ha cf))

theorem PolyForm.agg {e e' : Expr F} (he : WF SmartNum.Valid e) (h : PolyForm e) (cf : (terms σ x e).CF) (ha : Agg .strict e e') :
    PolyForm e' ∧ terms σ x e' = terms σ x e := by
  rcases h.agg_rep he cf e' ha with ⟨h0, -⟩ | h'
  · exact absurd h0 (h.nonempty σ x).ne_empty
  · exact h'

theorem Rep.agg {T : Pat} {e e' : Expr F} (he : WF SmartNum.Valid e) (cf : T.CF) (h : Rep σ x T e) (ha : Agg .strict e e') :
    Rep σ x T e' := by
  rcases h with ⟨rfl, k, rfl, hk⟩ | ⟨hp, rfl⟩
  · obtain rfl := ha.unique (.num _ trivial) (.num k)
    exact .inl ⟨rfl, k, rfl, hk⟩
  · exact hp.agg_rep he cf _ ha

theorem der_single (s : SignType) : Pat.der {(s, 0)} = ∅ := by
  ext ⟨t, d⟩
  simp [Pat.der]

/-- `derivative` lowers every power by one and drops the constant terms. -/
theorem PolyForm.der {e d : Expr F} (he : WF SmartNum.Valid e) (h : PolyForm e) (cf : (terms σ x e).CF) (hd : Der .strict x e d) :
    Rep σ x (terms σ x e).der d := by
  have wf : ∀ {a a' : Expr F}, WF SmartNum.Valid a → Der .strict x a a' → WF SmartNum.Valid a' :=
    fun v h => h.wf (numClosed_valid _) v
  induction h generalizing d with
  | num n q h1 h2 =>
    rw [terms_num h1 h2, der_single]
    generalize hs : (ofNum n : Expr F) = s at hd
    cases hd with
    | num => exact rep_ofI64_zero
    | _ => expr_inj at hs
  | var v =>
    generalize hs : (ofVar v : Expr F) = s at hd
    cases hd with
    | var =>
      expr_inj at hs
      have hs := congrArg Variable.mk hs
      obtain rfl : v = x := hs
      rw [terms_self]
      have : Pat.der {(1, 1)} = {(SignType.sign (1 : ℚ), 0)} := by
        ext ⟨t, d⟩
        simp [Pat.der]
      rw [this]
      exact rep_of_exact (q := 1) (by rfl) one_ne_zero
    | var_ne y hy =>
      expr_inj at hs
      have hs := congrArg Variable.mk hs
      obtain rfl : v = _ := hs
      rw [terms_other hy, der_single]
      exact rep_ofI64_zero
    | _ => expr_inj at hs
  | @add a b ha hb iha ihb =>
    generalize hs : a.add b = s at hd
    cases hd with
    | add h1 h2 h3 =>
      expr_inj at hs; obtain ⟨rfl, rfl⟩ := hs
      have hw := WF.add_iff.1 he
      have c1 := iha hw.1 (cf_left cf) h1
      have c2 := ihb hw.2 (cf_right cf) h2
      have cd := cf.der
      rw [terms_add] at cd ⊢
      exact agg_add_rep h3 (wf hw.1 h1) (wf hw.2 h2) cd (fun _ h => c1.agg (wf hw.1 h1) (cf_left cf).der h)
        (fun _ h => c2.agg (wf hw.2 h2) (cf_right cf).der h)
    | _ => expr_inj at hs
  | @mul a b ha hb iha ihb =>
    generalize hs : a.mul b = s at hd
    cases hd with
    | @mul _ _ a' b' _ h1 h2 h3 =>
      expr_inj at hs; obtain ⟨rfl, rfl⟩ := hs
      have hw := WF.mul_iff.1 he
      have cl := cf_mul_left hb cf
      have cr := cf_mul_right ha cf
      have c1 := iha hw.1 cl h1
      have c2 := ihb hw.2 cr h2
      have w1 := wf hw.1 h1
      have w2 := wf hw.2 h2
      have cd := cf.der
      rw [terms_mul, Pat.der_mul] at cd ⊢
      exact agg_add_rep h3 (.mul _ _ w1 hw.2) (.mul _ _ hw.1 w2) cd
        (fun _ h => agg_mul_rep h w1 hw.2 (fun _ h => c1.agg w1 cl.der h) (hb.agg_rep hw.2 cr))
        (fun _ h => agg_mul_rep h hw.1 w2 (ha.agg_rep hw.1 cl) (fun _ h => c2.agg w2 cr.der h))
    | _ => expr_inj at hs

/-- A polynomial all of whose terms are constant in `x` and of the sign `s`. -/
def Const (σ : Signs) (x : Variable) (s : SignType) (e : Expr F) : Prop := PolyForm e ∧ terms σ x e = {(s, 0)}

theorem cf_single (s : SignType) : Pat.CF {(s, 0)} := by
  intro a b d h1 h2
  simp only [Set.mem_singleton_iff, Prod.mk.injEq] at h1 h2
  rw [h1.1, h2.1]

omit [FloatOps F] in
theorem Const.add {s : SignType} {a b : Expr F} (h : Const σ x s a) (h' : Const σ x s b) : Const σ x s (a.add b) :=
  ⟨.add h.1 h'.1, by rw [terms_add, h.2, h'.2, Set.union_self]⟩

omit [FloatOps F] in
theorem Const.mul {s t : SignType} {a b : Expr F} (h : Const σ x s a) (h' : Const σ x t b) : Const σ x (s * t) (a.mul b) :=
  ⟨.mul h.1 h'.1, by rw [terms_mul, h.2, h'.2, Pat.single_mul]⟩

theorem Const.agg {s : SignType} {e e' : Expr F} (he : WF SmartNum.Valid e) (h : Const σ x s e) (ha : Agg .strict e e') : Const σ x s e' := by
  obtain ⟨h1, h2⟩ := h.1.agg (x := x) he (by rw [h.2]; exact cf_single s) ha
  exact ⟨h1, by rw [h2, h.2]⟩

omit [FloatOps F] in
theorem Const.uncancelled {s : SignType} {e : Expr F} (h : Const σ x s e) : Uncancelled σ x 0 e where
  form := h.1
  signs := fun a b d h1 h2 => by
    have := cf_single s
    rw [← h.2] at this
    exact this a b d h1 h2
  occurs := ⟨s, by have : (s, 0) ∈ terms σ x e := by rw [h.2]; rfl
                   exact this⟩
  lowest := fun _ _ _ => Nat.zero_le _

omit [FloatOps F] in
theorem Uncancelled.cf {i : ℕ} {e : Expr F} (h : Uncancelled σ x i e) : (terms σ x e).CF := h.signs

variable {pt : Expr F} {k : UInt64}

/-- What `limit` at 0 says about a polynomial without cancellation. -/
theorem PolyForm.limit {e : Expr F} (he : WF SmartNum.Valid e) (h : PolyForm e) (cf : (terms σ x e).CF)
    (hz : pt.isZero = true) (n : Nat) :
    limit .strict x pt k n e = .fuel ∨ limit .strict x pt k n e = .panic ∨
      ((∀ s, (s, 0) ∉ terms σ x e) ∧ limit .strict x pt k n e = .ok .infinitesimal) ∨
      (∃ s, (s, 0) ∈ terms σ x e ∧ ∃ c, limit .strict x pt k n e = .ok (.normal c) ∧ WF SmartNum.Valid c ∧ Const σ x s c) := by
  have fin : ∀ {c : Expr F} {s}, WF SmartNum.Valid c → Const σ x s c → finish .strict (.normal c) = .panic ∨
      ∃ c', finish .strict (.normal c) = .ok (.normal c') ∧ WF SmartNum.Valid c' ∧ Const σ x s c' := by
    intro c s vc hc
    cases h : c.numAggregate .strict with
    | panic => left; simp [finish, h]
    | ok c' =>
      have ha := agg_of_numAggregate vc.tree h
      exact .inr ⟨c', by simp [finish, h], ha.wf (numClosed_valid _) vc, hc.agg vc ha⟩
  induction h generalizing n with
  | num v q h1 h2 =>
    cases n with
    | zero => exact .inl rfl
    | succ n => rw [limit_ofNum]; exact .inr (.inr (.inr ⟨SignType.sign q, by rw [terms_num h1 h2]; rfl, _, rfl, he, .num v q h1 h2, terms_num h1 h2⟩))
  | var v =>
    cases n with
    | zero => exact .inl rfl
    | succ n =>
      rw [limit_ofVar]
      by_cases hv : v = x
      · subst hv
        simp only [if_true, hz]; exact .inr (.inr (.inl ⟨by simp [terms_self], rfl⟩))
      · rw [if_neg hv]
        simp only [LOut.ok_bind]
        have ht : terms σ x (ofVar v : Expr F) = {(σ.sign v, 0)} := terms_other (Ne.symm hv)
        rcases fin he (s := σ.sign v) ⟨.var v, ht⟩ with h | ⟨c, h, h1, h2⟩
        · exact .inr (.inl h)
        · exact .inr (.inr (.inr ⟨_, by rw [ht]; rfl, c, h, h1, h2⟩))
  | @add a b ha hb iha ihb =>
    have hw := WF.add_iff.1 he
    cases n with
    | zero => exact .inl rfl
    | succ n =>
      have cd := cf
      rw [terms_add] at cd ⊢
      rw [limit_add]
      simp only [addBody]
      rcases ihb hw.2 (cf_right cf) n with h | h | ⟨hj, h⟩ | ⟨t, ht, c, h, vc, pc⟩
      · rw [h]; exact .inl rfl
      · rw [h]; exact .inr (.inl rfl)
      · rcases iha hw.1 (cf_left cf) n with h' | h' | ⟨hi, h'⟩ | ⟨s, hs, d, h', vd, pd⟩
        · rw [h, h']; exact .inl rfl
        · rw [h, h']; exact .inr (.inl rfl)
        · rw [h, h']; exact .inr (.inr (.inl ⟨fun s hs => hs.elim (hi s) (hj s), rfl⟩))
        · rw [h, h']
          rcases fin vd pd with g | ⟨c', g, h1, h2⟩
          · exact .inr (.inl g)
          · exact .inr (.inr (.inr ⟨s, .inl hs, c', g, h1, h2⟩))
      · rcases iha hw.1 (cf_left cf) n with h' | h' | ⟨hi, h'⟩ | ⟨s, hs, d, h', vd, pd⟩
        · rw [h, h']; exact .inl rfl
        · rw [h, h']; exact .inr (.inl rfl)
        · rw [h, h']
          rcases fin vc pc with g | ⟨c', g, h1, h2⟩
          · exact .inr (.inl g)
          · exact .inr (.inr (.inr ⟨t, .inr ht, c', g, h1, h2⟩))
        · rw [h, h']
          obtain rfl : s = t := cd _ _ 0 (.inl hs) (.inr ht)
          rcases fin (.add _ _ vd vc) (pd.add pc) with g | ⟨c', g, h1, h2⟩
          · exact .inr (.inl g)
          · exact .inr (.inr (.inr ⟨s, .inl hs, c', g, h1, h2⟩))
  | @mul a b ha hb iha ihb =>
    have hw := WF.mul_iff.1 he
    have nl : (∀ s, (s, 0) ∉ terms σ x a) → ∀ s, (s, 0) ∉ terms σ x (a.mul b) := by
      intro h s hs
      rw [terms_mul] at hs
      obtain ⟨s', t, i, j, h1, h2, h3⟩ := hs
      obtain ⟨-, h3⟩ := Prod.mk.inj h3
      obtain rfl : i = 0 := by omega
      exact h _ h1
    have nr : (∀ s, (s, 0) ∉ terms σ x b) → ∀ s, (s, 0) ∉ terms σ x (a.mul b) := by
      intro h s hs
      rw [terms_mul] at hs
      obtain ⟨s', t, i, j, h1, h2, h3⟩ := hs
      obtain ⟨-, h3⟩ := Prod.mk.inj h3
      obtain rfl : j = 0 := by omega
      exact h _ h2
    cases n with
    | zero => exact .inl rfl
    | succ n =>
      rw [limit_mul]
      simp only [mulBody]
      rcases ihb hw.2 (cf_mul_right ha cf) n with h | h | ⟨hj, h⟩ | ⟨t, ht, c, h, vc, pc⟩
      · rw [h]; exact .inl rfl
      · rw [h]; exact .inr (.inl rfl)
      · rcases iha hw.1 (cf_mul_left hb cf) n with h' | h' | ⟨hi, h'⟩ | ⟨s, hs, d, h', vd, pd⟩
        · rw [h, h']; exact .inl rfl
        · rw [h, h']; exact .inr (.inl rfl)
        · rw [h, h']; exact .inr (.inr (.inl ⟨nl hi, rfl⟩))
        · rw [h, h']; exact .inr (.inr (.inl ⟨nr hj, rfl⟩))
      · rcases iha hw.1 (cf_mul_left hb cf) n with h' | h' | ⟨hi, h'⟩ | ⟨s, hs, d, h', vd, pd⟩
        · rw [h, h']; exact .inl rfl
        · rw [h, h']; exact .inr (.inl rfl)
        · rw [h, h']; exact .inr (.inr (.inl ⟨nl hi, rfl⟩))
        · rw [h, h']
          rcases fin (.mul _ _ vd vc) (pd.mul pc) with g | ⟨c', g, h1, h2⟩
          · exact .inr (.inl g)
          · exact .inr (.inr (.inr ⟨s * t, by rw [terms_mul]; exact ⟨s, t, 0, 0, hs, ht, rfl⟩, c', g, h1, h2⟩))

theorem Uncancelled.limit {i : ℕ} {e : Expr F} (he : WF SmartNum.Valid e) (h : Uncancelled σ x i e)
    (hz : pt.isZero = true) (n : Nat) :
    Expr.limit .strict x pt k n e = .fuel ∨ Expr.limit .strict x pt k n e = .panic ∨
      (1 ≤ i ∧ Expr.limit .strict x pt k n e = .ok .infinitesimal) ∨
      (i = 0 ∧ ∃ c s, Expr.limit .strict x pt k n e = .ok (.normal c) ∧ WF SmartNum.Valid c ∧ Const σ x s c) := by
  rcases h.form.limit (k := k) he h.cf hz n with h' | h' | ⟨h0, h'⟩ | ⟨s, h0, c, h', vc, pc⟩
  · exact .inl h'
  · exact .inr (.inl h')
  · refine .inr (.inr (.inl ⟨?_, h'⟩))
    obtain ⟨s, hs⟩ := h.occurs
    rcases Nat.eq_zero_or_pos i with rfl | hi
    · exact absurd hs (h0 s)
    · exact hi
  · exact .inr (.inr (.inr ⟨Nat.le_zero.1 (h.lowest s 0 h0), c, s, h', vc, pc⟩))

theorem PolyForm.not_zero {e : Expr F} (he : WF SmartNum.Valid e) (h : PolyForm e) : e.isZero = false := by
  cases h with
  | num n q h1 h2 =>
    rw [isZero_ofNum]
    have hn := WF.num_iff.1 he
    cases h0 : n.isZero with
    | false => rfl
    | true => rw [hn.zero_iff.1 h0] at h1; cases h1; exact absurd rfl h2
  | _ => rfl

theorem Uncancelled.der {i : ℕ} {e d : Expr F} (he : WF SmartNum.Valid e) (h : Uncancelled σ x i e) (hi : 1 ≤ i)
    (hd : Der .strict x e d) : Uncancelled σ x (i - 1) d := by
  obtain ⟨s, hs⟩ := h.occurs
  have h0 : (s, i - 1) ∈ (terms σ x e).der := by
    show (s, i - 1 + 1) ∈ terms σ x e
    rw [Nat.sub_add_cancel hi]; exact hs
  rcases h.form.der he h.cf hd with ⟨h1, -⟩ | ⟨hp, ht⟩
  · rw [h1] at h0; exact h0.elim
  · refine ⟨hp, ?_, ⟨s, ?_⟩, ?_⟩
    · have := h.cf.der
      rw [← ht] at this
      exact this
    · rw [← ht] at h0; exact h0
    · intro t d hd
      have : (t, d) ∈ (terms σ x e).der := by rw [← ht]; exact hd
      have := h.lowest t (d + 1) this
      omega

/-- The answer of the L'Hôpital loop. -/
theorem Uncancelled.divLoop (hz : pt.isZero = true) (n N : Nat) {i j : ℕ} {l r : Expr F} (hl : WF SmartNum.Valid l)
    (hr : WF SmartNum.Valid r) (h1 : Uncancelled σ x i l) (h2 : Uncancelled σ x j r) :
    let o := divLoop .strict (Expr.limit .strict x pt k n) x N l r
    o = .fuel ∨ o = .panic ∨ (N ≤ min i j ∧ o = .err) ∨ (min i j < N ∧
      ((j < i ∧ o = .ok .infinitesimal) ∨ (i < j ∧ o = .ok .infinity) ∨ (i = j ∧ ∃ c d s t,
        o = .ok (.normal (c.div d)) ∧ WF SmartNum.Valid c ∧ WF SmartNum.Valid d ∧ Const σ x s c ∧ Const σ x t d))) := by
  induction N generalizing i j l r with
  | zero => exact .inr (.inr (.inl ⟨Nat.zero_le _, rfl⟩))
  | succ N ih =>
    intro o
    simp only [o, Expr.divLoop]
    rcases h1.limit (k := k) hl hz n with h | h | ⟨hi, h⟩ | ⟨rfl, c, s, h, vc, pc⟩
    · rw [h]; exact .inl rfl
    · rw [h]; exact .inr (.inl rfl)
    · rcases h2.limit (k := k) hr hz n with h' | h' | ⟨hj, h'⟩ | ⟨rfl, d, t, h', vd, pd⟩
      · rw [h, h']; exact .inl rfl
      · rw [h, h']; exact .inr (.inl rfl)
      · rw [h, h']
        simp only [LOut.ok_bind, LimitExpression.div]
        cases e1 : l.derivative .strict x with
        | err e => exact (derivative_no_err hl.tree e e1).elim
        | panic => exact .inr (.inl rfl)
        | ok l' =>
          cases e2 : r.derivative .strict x with
          | err e => exact (derivative_no_err hr.tree e e2).elim
          | panic => exact .inr (.inl rfl)
          | ok r' =>
            have d1 := der_of_derivative hl.tree e1
            have d2 := der_of_derivative hr.tree e2
            have := ih (d1.wf (numClosed_valid _) hl) (d2.wf (numClosed_valid _) hr) (h1.der hl hi d1) (h2.der hr hj d2)
            simp only [LOut.ofOut_ok, LOut.ok_bind]
            rcases this with h | h | ⟨g, h⟩ | ⟨g, h⟩
            · exact .inl h
            · exact .inr (.inl h)
            · exact .inr (.inr (.inl ⟨by omega, h⟩))
            · refine .inr (.inr (.inr ⟨by omega, ?_⟩))
              rcases h with ⟨g, h⟩ | ⟨g, h⟩ | ⟨g, h⟩
              · exact .inl ⟨by omega, h⟩
              · exact .inr (.inl ⟨by omega, h⟩)
              · exact .inr (.inr ⟨by omega, h⟩)
      · rw [h, h']
        simp only [LOut.ok_bind, LimitExpression.div, pd.1.not_zero vd]
        exact .inr (.inr (.inr ⟨by omega, .inl ⟨by omega, rfl⟩⟩))
    · rcases h2.limit (k := k) hr hz n with h' | h' | ⟨hj, h'⟩ | ⟨rfl, d, t, h', vd, pd⟩
      · rw [h, h']; exact .inl rfl
      · rw [h, h']; exact .inr (.inl rfl)
      · rw [h, h']
        simp only [LOut.ok_bind, LimitExpression.div, pc.1.not_zero vc]
        exact .inr (.inr (.inr ⟨by omega, .inr (.inl ⟨by omega, rfl⟩)⟩))
      · rw [h, h']
        exact .inr (.inr (.inr ⟨by omega, .inr (.inr ⟨rfl, c, d, s, t, rfl, vc, vd, pc, pd⟩)⟩))

theorem Uncancelled.nth {i q : ℕ} {e d : Expr F} (he : WF SmartNum.Valid e) (h : Uncancelled σ x i e) (hq : q ≤ i)
    (hd : nthDerivative .strict e x q = .ok d) : WF SmartNum.Valid d ∧ Uncancelled σ x (i - q) d := by
  induction q generalizing d with
  | zero => cases hd; exact ⟨he, h⟩
  | succ q ih =>
    obtain ⟨d', h1, h2⟩ := Out.bind_eq_ok.1 hd
    obtain ⟨v, hp⟩ := ih (by omega) h1
    have hd := der_of_derivative v.tree h2
    refine ⟨hd.wf (numClosed_valid _) v, ?_⟩
    rw [show i - (q + 1) = i - q - 1 by omega]
    exact hp.der v (by omega) hd

theorem exact_lift {n : SmartNum F} (hn : n.Valid) : n.lift.exact? = n.exact? := by
  conv_rhs => rw [← SmartNum.map_lift hn]
  rw [SmartNum.exact?_map]

theorem PolyForm.lift {e : Expr F} (he : WF SmartNum.Valid e) (h : PolyForm e) : PolyForm e.lift ∧ terms σ x e.lift = terms σ x e := by
  induction h with
  | num n q h1 h2 =>
    have h3 : n.lift.exact? = some q := by rw [exact_lift (WF.num_iff.1 he), h1]
    have h4 : (ofNum n : Expr F).lift = ofNum n.lift := by simp [Expr.lift]
    rw [h4]
    exact ⟨.num n.lift q h3 h2, by rw [terms_num h3 h2, terms_num h1 h2]⟩
  | var v =>
    have h4 : (ofVar v : Expr F).lift = ofVar v := by simp [Expr.lift]
    rw [h4]
    refine ⟨.var v, ?_⟩
    by_cases hv : x = v
    · subst hv; rw [terms_self, terms_self]
    · rw [terms_other hv, terms_other hv]
  | @add a b _ _ i j =>
    have := WF.add_iff.1 he
    have h4 : (a.add b).lift = a.lift.add b.lift := by simp [Expr.lift]
    rw [h4, terms_add, terms_add, (i this.1).2, (j this.2).2]
    exact ⟨.add (i this.1).1 (j this.2).1, rfl⟩
  | @mul a b _ _ i j =>
    have := WF.mul_iff.1 he
    have h4 : (a.mul b).lift = a.lift.mul b.lift := by simp [Expr.lift]
    rw [h4, terms_mul, terms_mul, (i this.1).2, (j this.2).2]
    exact ⟨.mul (i this.1).1 (j this.2).1, rfl⟩

theorem Uncancelled.lift {i : ℕ} {e : Expr F} (he : WF SmartNum.Valid e) (h : Uncancelled σ x i e) : Uncancelled σ x i e.lift := by
  obtain ⟨h1, h2⟩ := h.form.lift (x := x) he
  have iff : ∀ s d, HasTerm σ x s d e.lift ↔ HasTerm σ x s d e := fun s d => by
    show (s, d) ∈ terms σ x e.lift ↔ (s, d) ∈ terms σ x e
    rw [h2]
  exact ⟨h1, fun s t d h3 h4 => h.signs s t d ((iff _ _).1 h3) ((iff _ _).1 h4), h.occurs.imp fun s hs => (iff _ _).2 hs,
    fun s d hd => h.lowest s d ((iff _ _).1 hd)⟩

/-! ### values -/

theorem sign_sum {ι : Type} (S : Finset ι) (f : ι → ℝ) (s : SignType) (h : ∀ i ∈ S, f i = 0 ∨ SignType.sign (f i) = s)
    (h0 : ∃ i ∈ S, f i ≠ 0) : SignType.sign (∑ i ∈ S, f i) = s := by
  obtain ⟨i, hi, h1⟩ := h0
  cases s with
  | zero => exact absurd (sign_eq_zero_iff.1 ((h i hi).resolve_left h1)) h1
  | neg =>
    have : ∀ j ∈ S, f j ≤ 0 := fun j hj => (h j hj).elim (fun h => h.le) (fun h => (sign_eq_neg_one_iff.1 h).le)
    exact sign_neg (Finset.sum_neg' this ⟨i, hi, sign_eq_neg_one_iff.1 ((h i hi).resolve_left h1)⟩)
  | pos =>
    have : ∀ j ∈ S, 0 ≤ f j := fun j hj => (h j hj).elim (fun h => h.ge) (fun h => (sign_eq_one_iff.1 h).le)
    exact sign_pos (Finset.sum_pos' this ⟨i, hi, sign_eq_one_iff.1 ((h i hi).resolve_left h1)⟩)

theorem sign_add_two {a b : ℝ} {s : SignType} (ha : a = 0 ∨ SignType.sign a = s) (hb : b = 0 ∨ SignType.sign b = s)
    (h : a ≠ 0 ∨ b ≠ 0) : SignType.sign (a + b) = s := by
  have := sign_sum Finset.univ (fun i : Bool => if i then a else b) s (by intro i _; cases i <;> simpa)
    (by rcases h with h | h
        · exact ⟨true, Finset.mem_univ _, by simpa⟩
        · exact ⟨false, Finset.mem_univ _, by simpa⟩)
  simpa using this

/-- The value of a polynomial without cancellation is a polynomial in `t` whose coefficients have the signs of the terms. -/
theorem PolyForm.value {ν : SmartNum F → Option ℝ} (hν : ∀ n : SmartNum F, n.Valid → ∀ q : ℚ, n.exact? = some q → ν n = some (q : ℝ))
    {e : Expr F} (he : WF SmartNum.Valid e) (h : PolyForm e) (cf : (terms σ x e).CF) {env : Env}
    (hp : ∀ v, v ≠ x → SignType.sign (env v) = σ.sign v) : ∃ p : Polynomial ℝ, (∀ t, denote ν (env.set x t) e = some (p.eval t)) ∧
      (∀ s d, (s, d) ∈ terms σ x e → SignType.sign (p.coeff d) = s) ∧ ∀ d, (∀ s, (s, d) ∉ terms σ x e) → p.coeff d = 0 := by
  induction h with
  | num n q h1 h2 =>
    refine ⟨Polynomial.C (q : ℝ), fun t => by rw [denote_ofNum, hν _ (WF.num_iff.1 he) q h1]; simp, ?_, ?_⟩
    · intro s d hd
      rw [terms_num h1 h2] at hd
      cases hd
      rw [Polynomial.coeff_C_zero]
      rcases lt_or_gt_of_ne h2 with h | h
      · rw [sign_neg h, sign_neg (by exact_mod_cast h)]
      · rw [sign_pos h, sign_pos (by exact_mod_cast h)]
    · intro d hd
      rw [terms_num h1 h2] at hd
      have : d ≠ 0 := fun h0 => hd _ (by rw [h0]; rfl)
      exact Polynomial.coeff_C_of_ne_zero this
  | var v =>
    by_cases hv : x = v
    · subst hv
      refine ⟨Polynomial.X, fun t => by rw [denote_ofVar]; simp, ?_, ?_⟩
      · intro s d hd
        rw [terms_self] at hd
        cases hd
        simp
      · intro d hd
        rw [terms_self] at hd
        have : d ≠ 1 := fun h0 => hd 1 (by rw [h0]; rfl)
        exact Polynomial.coeff_X_of_ne_one this
    · refine ⟨Polynomial.C (env v), fun t => by rw [denote_ofVar, Env.set_ne _ _ (Ne.symm hv)]; simp, ?_, ?_⟩
      · intro s d hd
        rw [terms_other hv] at hd
        cases hd
        rw [Polynomial.coeff_C_zero, hp v (Ne.symm hv)]
      · intro d hd
        rw [terms_other hv] at hd
        have : d ≠ 0 := fun h0 => hd _ (by rw [h0]; rfl)
        exact Polynomial.coeff_C_of_ne_zero this
  | @add a b ha hb iha ihb =>
    have hw := WF.add_iff.1 he
    obtain ⟨p, vp, sp, zp⟩ := iha hw.1 (cf_left cf)
    obtain ⟨q, vq, sq, zq⟩ := ihb hw.2 (cf_right cf)
    refine ⟨p + q, fun t => denote_add.2 ⟨_, _, vp t, vq t, by simp⟩, ?_, ?_⟩
    · intro s d hd
      rw [Polynomial.coeff_add]
      have ca : p.coeff d = 0 ∨ SignType.sign (p.coeff d) = s := by
        by_cases h : ∃ s', (s', d) ∈ terms σ x a
        · obtain ⟨s', h⟩ := h
          have : s' = s := cf _ _ d (by rw [terms_add]; exact .inl h) hd
          exact .inr (by rw [sp _ _ h, this])
        · exact .inl (zp d (fun s' hs => h ⟨s', hs⟩))
      have cb : q.coeff d = 0 ∨ SignType.sign (q.coeff d) = s := by
        by_cases h : ∃ s', (s', d) ∈ terms σ x b
        · obtain ⟨s', h⟩ := h
          have : s' = s := cf _ _ d (by rw [terms_add]; exact .inr h) hd
          exact .inr (by rw [sq _ _ h, this])
        · exact .inl (zq d (fun s' hs => h ⟨s', hs⟩))
      refine sign_add_two ca cb ?_
      rw [terms_add] at hd
      rcases hd with hd | hd
      · left; rw [← sign_ne_zero, sp _ _ hd]; exact HasTerm.sign_ne hd
      · right; rw [← sign_ne_zero, sq _ _ hd]; exact HasTerm.sign_ne hd
    · intro d hd
      rw [terms_add] at hd
      rw [Polynomial.coeff_add, zp d (fun s h => hd s (.inl h)), zq d (fun s h => hd s (.inr h)), add_zero]
  | @mul a b ha hb iha ihb =>
    have hw := WF.mul_iff.1 he
    obtain ⟨p, vp, sp, zp⟩ := iha hw.1 (cf_mul_left hb cf)
    obtain ⟨q, vq, sq, zq⟩ := ihb hw.2 (cf_mul_right ha cf)
    have key : ∀ i j : ℕ, p.coeff i * q.coeff j = 0 ∨
        ∃ s, (s, i + j) ∈ terms σ x (a.mul b) ∧ SignType.sign (p.coeff i * q.coeff j) = s := by
      intro i j
      by_cases h1 : ∃ s, (s, i) ∈ terms σ x a
      · by_cases h2 : ∃ t, (t, j) ∈ terms σ x b
        · obtain ⟨s, h1⟩ := h1
          obtain ⟨t, h2⟩ := h2
          exact .inr ⟨s * t, HasTerm.mul h1 h2, by rw [sign_mul, sp _ _ h1, sq _ _ h2]⟩
        · exact .inl (by rw [zq j (fun s hs => h2 ⟨s, hs⟩), mul_zero])
      · exact .inl (by rw [zp i (fun s hs => h1 ⟨s, hs⟩), zero_mul])
    refine ⟨p * q, fun t => denote_mul.2 ⟨_, _, vp t, vq t, by simp⟩, ?_, ?_⟩
    · intro s d hd
      rw [Polynomial.coeff_mul]
      refine sign_sum _ _ s ?_ ?_
      · rintro ⟨i, j⟩ hij
        rw [Finset.mem_antidiagonal] at hij
        rcases key i j with h | ⟨s', h1, h2⟩
        · exact .inl h
        · right
          simp only at hij
          rw [hij] at h1
          rw [h2, cf _ _ d h1 hd]
      · rw [terms_mul] at hd
        obtain ⟨s', t, i, j, h1, h2, h3⟩ := hd
        obtain ⟨-, rfl⟩ := Prod.mk.inj h3
        refine ⟨(i, j), by simp, mul_ne_zero ?_ ?_⟩
        · rw [← sign_ne_zero, sp _ _ h1]; exact HasTerm.sign_ne h1
        · rw [← sign_ne_zero, sq _ _ h2]; exact HasTerm.sign_ne h2
    · intro d hd
      rw [Polynomial.coeff_mul]
      refine Finset.sum_eq_zero ?_
      rintro ⟨i, j⟩ hij
      rw [Finset.mem_antidiagonal] at hij
      rcases key i j with h | ⟨s', h1, h2⟩
      · exact h
      · simp only at hij
        rw [hij] at h1
        exact absurd h1 (hd s')

/-- ... so it is `t^i` times a continuous function that is not 0 at 0. -/
theorem Uncancelled.value {ν : SmartNum F → Option ℝ} (hν : ∀ n : SmartNum F, n.Valid → ∀ q : ℚ, n.exact? = some q → ν n = some (q : ℝ))
    {i : ℕ} {e : Expr F} (he : WF SmartNum.Valid e) (h : Uncancelled σ x i e) {env : Env}
    (hp : ∀ v, v ≠ x → SignType.sign (env v) = σ.sign v) : ∃ g : ℝ → ℝ, Continuous g ∧ (∀ s, HasTerm σ x s i e → SignType.sign (g 0) = s) ∧
      g 0 ≠ 0 ∧ ∀ t, denote ν (env.set x t) e = some (t ^ i * g t) := by
  obtain ⟨p, h1, h2, h3⟩ := h.form.value hν he h.cf hp
  have hd : Polynomial.X ^ i ∣ p := by
    rw [Polynomial.X_pow_dvd_iff]
    intro d hd
    exact h3 d fun s hs => absurd (h.lowest s d hs) (by omega)
  obtain ⟨q, rfl⟩ := hd
  have hs : ∀ s, HasTerm σ x s i e → SignType.sign (q.eval 0) = s := by
    intro s hs
    have := h2 s i hs
    have hc : (Polynomial.X ^ i * q).coeff i = q.coeff 0 := by
      have := Polynomial.coeff_X_pow_mul q i 0
      rwa [Nat.zero_add] at this
    rwa [hc, Polynomial.coeff_zero_eq_eval_zero] at this
  obtain ⟨s, h0⟩ := h.occurs
  exact ⟨fun t => q.eval t, q.continuous, hs, by rw [← sign_ne_zero, hs s h0]; exact h0.sign_ne, fun t => by rw [h1]; simp⟩

end SymRust

namespace SymRust
open Expr Filter Topology
variable {F : Type} [ExactFloat F] {σ : Signs} {x : Variable} {env : Env} {pt l r : Expr F} {k : UInt64} {n : Nat} {z : LimitExpression F}

theorem Uncancelled.quotient {i : ℕ} (hpt : denote SmartNum.value? env pt = some 0) (wp : WF SmartNum.Valid pt)
    (sp : Safe SmartNum.value? Set.univ pt) (hz : pt.isZero = true) (hp : ∀ v, v ≠ x → SignType.sign (env v) = σ.sign v) (hl : Regular env x pt 0 l)
    (hr : Regular env x pt 0 r) (pl : Uncancelled σ x i l) (pr : Uncancelled σ x i r)
    (h : Expr.limit .strict x pt k n (l.div r) = .ok z) :
    ∃ w, Means env w z ∧ Tendsto (fun t => fn SmartNum.value? env x l t / fn SmartNum.value? env x r t) (𝓝[≠] 0) (𝓝 w) := by
  obtain ⟨q, hq, li, ri, a, b, g1, g2, g3, g4, ma, mb, ⟨w, hw, hf⟩, h0⟩ := lhopital_steps hpt wp sp hl hr h
  have pos : ∀ {d : Expr F}, nthDerivative .strict r x i = .ok d → iteratedDeriv i (fn SmartNum.value? env x r) 0 ≠ 0 := by
    intro d hd
    obtain ⟨v, p⟩ := pr.nth hr.wf le_rfl hd
    obtain ⟨g, -, -, pg, hg⟩ := p.value (ν := SmartNum.value?)
      (fun n _ q hq => SmartNum.value?_iff.2 (.inl ⟨q, hq, rfl⟩)) v hp
    have h1 := (hr.derivative i hd).2
    rw [hg 0] at h1
    simp only [Nat.sub_self, pow_zero, one_mul, Option.some.injEq] at h1
    rw [← h1]; exact pg
  have hqi : q = i := by
    rcases lt_trichotomy q i with hlt | rfl | hlt
    · exfalso
      have inf : ∀ {e d : Expr F} {a : LimitExpression F}, WF SmartNum.Valid e → Uncancelled σ x i e → nthDerivative .strict e x q = .ok d →
          Expr.limit .strict x pt k (n - 1) d = .ok a → a = .infinitesimal := by
        intro e d a ve pe hd ha
        obtain ⟨v, p⟩ := pe.nth ve hlt.le hd
        rcases p.limit (k := k) v hz (n - 1) with h | h | ⟨-, h⟩ | ⟨h0, -⟩
        · rw [h] at ha; cases ha
        · rw [h] at ha; cases ha
        · rw [h] at ha; cases ha; rfl
        · omega
      rw [inf hl.wf pl g1 g3, inf hr.wf pr g2 g4] at hw
      cases hw
    · rfl
    · obtain ⟨d, hd⟩ := nthDerivative_prefix hlt.le g2
      exact absurd (h0 i hlt).2 (pos hd)
  subst hqi
  obtain ⟨w', hw', hm⟩ := div_means ma mb (pos g2)
  rw [hw] at hw'; cases hw'
  exact ⟨_, finish_means hm hf, quotient_tendsto hl hr h0 (pos g2)⟩

end SymRust
