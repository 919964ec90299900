import Verif.Props.LimitForm
import Verif.Props.LimitTerm
/-! # Quotients whose derivatives have limits: no overflow while the bounds hold -/

namespace SymRust
variable {F : Type} [FloatOps F]
open Expr

omit [FloatOps F] in
/-- Putting in the point only enlarges the bounds. -/
theorem Small.of_replace {e v : Expr F} (he : Tree e) (x : Variable) (h : Small (e.replace x v)) : Small e := by
  have hat : ∀ {a : Expr F}, Tree a → Small (a.replace x v) → SmallAt a := fun ha h =>
    (h _ .refl).hle (height_replace ha x v)
  induction he with
  | num n hn => exact everywhere_ofNum.2 (hat (.num n hn) h)
  | var y => exact small_ofVar y
  | neg a ha i => have := hat (.neg _ ha) h; rw [replace_neg] at h; exact everywhere_neg.2 ⟨this, i (everywhere_neg.1 h).2⟩
  | sin a ha i => have := hat (.sin _ ha) h; rw [replace_sin] at h; exact everywhere_sin.2 ⟨this, i (everywhere_sin.1 h).2⟩
  | cos a ha i => have := hat (.cos _ ha) h; rw [replace_cos] at h; exact everywhere_cos.2 ⟨this, i (everywhere_cos.1 h).2⟩
  | exp a ha i => have := hat (.exp _ ha) h; rw [replace_exp] at h; exact everywhere_exp.2 ⟨this, i (everywhere_exp.1 h).2⟩
  | ln a ha i => have := hat (.ln _ ha) h; rw [replace_ln] at h; exact everywhere_ln.2 ⟨this, i (everywhere_ln.1 h).2⟩
  | add a b ha hb i j =>
    have := hat (.add _ _ ha hb) h; rw [replace_add] at h
    exact everywhere_add.2 ⟨this, i (everywhere_add.1 h).2.1, j (everywhere_add.1 h).2.2⟩
  | sub a b ha hb i j =>
    have := hat (.sub _ _ ha hb) h; rw [replace_sub] at h
    exact everywhere_sub.2 ⟨this, i (everywhere_sub.1 h).2.1, j (everywhere_sub.1 h).2.2⟩
  | mul a b ha hb i j =>
    have := hat (.mul _ _ ha hb) h; rw [replace_mul] at h
    exact everywhere_mul.2 ⟨this, i (everywhere_mul.1 h).2.1, j (everywhere_mul.1 h).2.2⟩
  | div a b ha hb i j =>
    have := hat (.div _ _ ha hb) h; rw [replace_div] at h
    exact everywhere_div.2 ⟨this, i (everywhere_div.1 h).2.1, j (everywhere_div.1 h).2.2⟩
  | pow a b ha hb i j =>
    have := hat (.pow _ _ ha hb) h; rw [replace_pow] at h
    exact everywhere_pow.2 ⟨this, i (everywhere_pow.1 h).2.1, j (everywhere_pow.1 h).2.2⟩

omit [FloatOps F] in
theorem tree_rawDerN {e : Expr F} (he : Tree e) (x : Variable) (n : Nat) : Tree (e.rawDerN x n) := by
  induction n with
  | zero => exact he
  | succ n ih => exact tree_rawDer ih x

theorem limit_below {x : Variable} {pt e t : Expr F} {k : UInt64} (hp : WF SmartNum.Valid pt) (he : WF SmartNum.Valid e)
    (hf : QuotientFree e) (hb : Below e t) (hs : Small (t.replace x pt)) (n : Nat) {o : LOut (LimitExpression F)}
    (h : limit .strict x pt k n e = o) (ho : o ≠ .fuel) :
    ∃ z, o = .ok z ∧ GoodFor (t.replace x pt) z := by
  have hb' := hb.replace x hp.tree
  obtain ⟨z, h1, h2⟩ := limit_good (m := .strict) (x := x) (k := k) hp (fun b h => h.elim) hf he (.inr (hb'.small hs))
    (n := depth e) le_rfl
  have := limit_outcome_unique hp.tree he.tree (n := n) (n' := depth e) (by rw [h]; exact ho) (by rw [h1]; simp)
  rw [h, h1] at this
  refine ⟨z, this, ?_⟩
  cases z with
  | infinitesimal => trivial
  | normal c => exact ⟨h2.1, fun _ => (h2.2 (hb'.small hs)).trans hb'⟩
  | _ => exact h2.elim

theorem divLoop_small {x : Variable} {pt f g : Expr F} {k : UInt64} (hp : WF SmartNum.Valid pt) (n : Nat) {Q : Nat}
    (tf : Tree f) (tg : Tree g) (N q : Nat) (hQ : q + N = Q) {l r : Expr F} (wl : WF SmartNum.Valid l) (wr : WF SmartNum.Valid r)
    (bl : Below l (f.rawDerN x q)) (br : Below r (g.rawDerN x q))
    (nl : nthDerivative .strict f x q = .ok l) (nr : nthDerivative .strict g x q = .ok r)
    (hq : ∀ j d, j < Q → nthDerivative .strict f x j = .ok d ∨ nthDerivative .strict g x j = .ok d → QuotientFree d)
    (hs : ∀ j, j < Q → StepSmall f g pt x j)
    (hlast : StepSmall f g pt x Q ∨ ∀ l r a b, nthDerivative .strict f x (Q - 1) = .ok l →
      nthDerivative .strict g x (Q - 1) = .ok r → limit .strict x pt k n l = .ok a → limit .strict x pt k n r = .ok b →
      a.div b ≠ none) :
    divLoop .strict (limit .strict x pt k n) x N l r ≠ .panic ∧
    ∀ c, divLoop .strict (limit .strict x pt k n) x N l r = .ok (.normal c) → WF SmartNum.Valid c ∧ Small c := by
  induction N generalizing q l r with
  | zero => simp [divLoop]
  | succ N ih =>
    have hs0 := hs q (by omega)
    unfold StepSmall at hs0
    rw [replace_div] at hs0
    have sl := (small_div_iff hs0).1
    have sr := (small_div_iff hs0).2
    have ql := hq q l (by omega) (.inl nl)
    have qr := hq q r (by omega) (.inr nr)
    simp only [divLoop]
    by_cases f1 : limit .strict x pt k n l = .fuel
    · simp [f1]
    obtain ⟨a, h1, g1⟩ := limit_below hp wl ql bl sl n rfl f1
    by_cases f2 : limit .strict x pt k n r = .fuel
    · simp [h1, f2]
    obtain ⟨b, h2, g2⟩ := limit_below hp wr qr br sr n rfl f2
    simp only [h1, h2, LOut.ok_bind]
    cases h3 : a.div b with
    | some z =>
      refine ⟨by simp, fun c hc => ?_⟩
      simp only at hc
      cases hc
      cases a <;> cases b <;> first | exact g1.elim | exact g2.elim | skip
      · cases h3
      · simp only [LimitExpression.div] at h3; split_ifs at h3; cases h3
      · simp only [LimitExpression.div] at h3; split_ifs at h3; cases h3
      · cases h3
        exact ⟨.div _ _ g1.1 g2.1, (Below.div (g1.2 sl) (g2.2 sr)).small hs0⟩
    | none =>
      have hs1 : StepSmall f g pt x (q + 1) := by
        by_cases hN : N = 0
        · subst hN
          rcases hlast with h | h
          · rwa [← hQ] at h
          · have e : Q - 1 = q := by omega
            rw [e] at h
            exact (h l r a b nl nr h1 h2 h3).elim
        · exact hs _ (by omega)
      unfold StepSmall at hs1
      rw [replace_div] at hs1
      have sl1 := Small.of_replace (tree_rawDerN tf x (q + 1)) x (small_div_iff hs1).1
      have sr1 := Small.of_replace (tree_rawDerN tg x (q + 1)) x (small_div_iff hs1).2
      have bl1 : Below (l.rawDer x) (f.rawDerN x (q + 1)) := bl.rawDer x
      have br1 : Below (r.rawDer x) (g.rawDerN x (q + 1)) := br.rawDer x
      obtain ⟨l', d1, e1, w1⟩ := derivative_small wl x (bl1.small sl1)
      obtain ⟨r', d2, e2, w2⟩ := derivative_small wr x (br1.small sr1)
      simp only [d1, d2, LOut.ofOut_ok, LOut.ok_bind]
      exact ih (q + 1) (by omega) w1 w2 (e1.trans bl1) (e2.trans br1)
        (Out.bind_eq_ok.2 ⟨l, nl, d1⟩) (Out.bind_eq_ok.2 ⟨r, nr, d2⟩)

/-- Under these conditions the limit of the quotient does not panic. -/
theorem divLimit_small {x : Variable} {pt f g : Expr F} {k : UInt64} (hp : WF SmartNum.Valid pt)
    (wf : WF SmartNum.Valid f) (wg : WF SmartNum.Valid g)
    (hq : ∀ j d, j ≤ k.toNat → nthDerivative .strict f x j = .ok d ∨ nthDerivative .strict g x j = .ok d → QuotientFree d)
    (hs : ∀ j, j ≤ k.toNat → StepSmall f g pt x j)
    (hlast : StepSmall f g pt x (k.toNat + 1) ∨ ∀ n l r a b, nthDerivative .strict f x k.toNat = .ok l →
      nthDerivative .strict g x k.toNat = .ok r → limit .strict x pt k n l = .ok a → limit .strict x pt k n r = .ok b →
      a.div b ≠ none) : ¬ LimitPanics .strict (f.div g) x pt k := by
  rintro ⟨n, h⟩
  cases n with
  | zero => cases h
  | succ n =>
    rw [limit_div] at h
    obtain ⟨h1, h2⟩ := divLoop_small (k := k) hp n wf.tree wg.tree (k.toNat + 1) 0 (zero_add _) wf wg (.refl _) (.refl _) rfl rfl
      (fun j d hj => hq j d (by omega)) (fun j hj => hs j (by omega)) (hlast.imp_right fun h => h n)
    cases ho : divLoop .strict (limit .strict x pt k n) x (k.toNat + 1) f g with
    | panic => exact h1 ho
    | err => rw [ho] at h; cases h
    | fuel => rw [ho] at h; cases h
    | ok z =>
      rw [ho] at h
      cases z with
      | normal c =>
        obtain ⟨v, s⟩ := h2 c ho
        obtain ⟨r, hr, -⟩ := numAggregate_small v s
        simp [finish, hr] at h
      | _ => cases h

theorem limitErr_all {e pt : Expr F} {x : Variable} {k : UInt64} (he : Tree e) (ht : Tree pt)
    (h : LimitErr .strict e x pt k) (m : Mode) : LimitErr m e x pt k := by
  obtain ⟨n, h⟩ := h
  rcases limit_le (S := fun b => b = .panic) (m := .strict) (m' := m) (x := x) (k := k) (n := n) (.inr ⟨Mode.strict_le m, rfl⟩)
    (.inl rfl) (.inl rfl) ht he with h' | ⟨b, rfl, h'⟩
  · exact ⟨n, h'.symm.trans h⟩
  · rw [h] at h'; cases h'

end SymRust
