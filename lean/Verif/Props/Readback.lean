import Verif.Proofs.DisplayText
import Verif.Proofs.AggSound
import Verif.Props.Number
import Verif.Spec.Exact
import Verif.Proofs.Kernel
/-! # C47: when do two expressions print alike? -/

namespace SymRust
variable {F : Type}
open Expr

namespace PT

/-! ## Left-grouping -/

/-- `a o b` with the chain at the root of `b` regrouped to the left. -/
def join (a : PT F) (o : BinOp) : PT F → PT F
  | .bin o' b c => if o'.level = o.level then .bin o' (join a o b) c else .bin o a (.bin o' b c)
  | t => .bin o a t

/-- Everything regrouped to the left. -/
def canon : PT F → PT F
  | .leaf o => .leaf o
  | .neg a => .neg a.canon
  | .fn k a => .fn k a.canon
  | .bin o a b => join a.canon o b.canon

theorem join_of_ne {a b : PT F} {o : BinOp} (h : b.prio ≠ o.level) : join a o b = .bin o a b := by
  cases b with
  | bin o' b c => simp only [join]; rw [if_neg (by simpa [prio] using h)]
  | _ => rfl

theorem prio_join (a b : PT F) (o : BinOp) : (join a o b).prio = o.level := by
  cases b with
  | bin o' b c => simp only [join]; split_ifs with h <;> simp [prio, h]
  | _ => rfl

theorem prio_canon (t : PT F) : t.canon.prio = t.prio := by
  cases t <;> first | rfl | exact prio_join _ _ _

theorem left_join {a b : PT F} {o : BinOp} (ha : a.Left) (hb : b.Left) : (join a o b).Left := by
  induction b with
  | bin o' b c i _ =>
    simp only [join]
    split_ifs with h
    · exact ⟨i hb.1, hb.2⟩
    · exact ⟨ha, hb, by simpa [prio] using h⟩
  | leaf x => exact ⟨ha, hb, by cases o <;> simp [prio, BinOp.level]⟩
  | neg x => exact ⟨ha, hb, by cases o <;> simp [prio, BinOp.level]⟩
  | fn k x => exact ⟨ha, hb, by cases o <;> simp [prio, BinOp.level]⟩

theorem left_canon (t : PT F) : t.canon.Left := by
  induction t with
  | leaf o => trivial
  | neg a ih => exact ih
  | fn k a ih => exact ih
  | bin o a b i j => exact left_join i j

theorem over_join {S : AstOperand F → Prop} {a b : PT F} {o : BinOp} (ha : a.Over S) (hb : b.Over S) :
    (join a o b).Over S := by
  induction b with
  | bin o' b c i _ =>
    simp only [join]
    split_ifs with h
    · exact ⟨i hb.1, hb.2⟩
    · exact ⟨ha, hb⟩
  | _ => exact ⟨ha, hb⟩

theorem over_canon {S : AstOperand F → Prop} {t : PT F} (h : t.Over S) : t.canon.Over S := by
  induction t with
  | leaf o => exact h
  | neg a ih => exact ih h
  | fn k a ih => exact ih h
  | bin o a b i j => exact over_join (i h.1) (j h.2)

theorem canon_of_left {t : PT F} (h : t.Left) : t.canon = t := by
  induction t with
  | leaf o => rfl
  | neg a ih => rw [canon, ih h]
  | fn k a ih => rw [canon, ih h]
  | bin o a b i j => rw [canon, i h.1, j h.2.1, join_of_ne h.2.2]

theorem regroup_join (a b : PT F) (o : BinOp) : Regroup (o.app a.toExpr b.toExpr) (join a o b).toExpr := by
  induction b with
  | bin o' b c i _ =>
    simp only [join]
    split_ifs with h
    · exact (Regroup.shift o o' _ _ _ h.symm).trans (.bin o' i (.refl _))
    · exact .refl _
  | _ => exact .refl _

theorem regroup_canon (t : PT F) : Regroup t.toExpr t.canon.toExpr := by
  induction t with
  | leaf o => exact .refl _
  | neg a ih => exact .neg ih
  | fn k a ih => cases k; exacts [.sin ih, .cos ih, .exp ih, .ln ih]
  | bin o a b i j => exact (Regroup.bin o i j).trans (regroup_join _ _ _)

theorem toExpr_bin (o : BinOp) (a b : PT F) : (PT.bin o a b).toExpr = o.app a.toExpr b.toExpr := rfl

theorem denote_app_congr {ν : SmartNum F → Option ℝ} {env : Env} {o : BinOp} {a a' b b' : Expr F}
    (ha : denote ν env a = denote ν env a') (hb : denote ν env b = denote ν env b') :
    denote ν env (o.app a b) = denote ν env (o.app a' b') := by
  cases o <;> simp only [BinOp.app, denote_add', denote_sub', denote_mul', denote_div', denote_pow', ha, hb]

theorem denote_join {ν : SmartNum F → Option ℝ} {env : Env} {a b : PT F} {o : BinOp} (ho : o = .add ∨ o = .mul) :
    denote ν env (join a o b).toExpr = denote ν env (o.app a.toExpr b.toExpr) := by
  induction b with
  | bin o' b c i _ =>
    simp only [join]
    split_ifs with h
    · rw [toExpr_bin, denote_app_congr i rfl, toExpr_bin]
      generalize a.toExpr = x
      generalize b.toExpr = y
      generalize c.toExpr = z
      rcases ho with rfl | rfl <;> cases o' <;> simp [BinOp.level] at h
      all_goals
        simp only [BinOp.app, denote_add', denote_sub', denote_mul']
        cases denote ν env x <;> cases denote ν env y <;> cases denote ν env z <;> simp [opValue] <;> ring
    · rfl
  | _ => rfl

/-- `Unambiguous`, on the tree type. -/
def Plain : PT F → Prop
  | .leaf _ => True
  | .neg a => a.Plain
  | .fn _ a => a.Plain
  | .bin o a b => a.Plain ∧ b.Plain ∧ (o = .add ∨ o = .mul ∨ b.prio ≠ o.level)

theorem denote_canon {ν : SmartNum F → Option ℝ} {env : Env} {t : PT F} (h : t.Plain) :
    denote ν env t.canon.toExpr = denote ν env t.toExpr := by
  induction t with
  | leaf o => rfl
  | neg a ih => simp only [canon, toExpr, denote_neg', ih h]
  | fn k a ih => cases k <;> simp only [canon, toExpr, Fn.app, denote_sin', denote_cos', denote_exp', denote_ln', ih h]
  | bin o a b i j =>
    rw [canon, toExpr_bin, ← denote_app_congr (i h.1) (j h.2.1)]
    by_cases ho : b.prio = o.level
    · rcases h.2.2 with h' | h' | h'
      · exact denote_join (.inl h')
      · exact denote_join (.inr h')
      · exact absurd ho h'
    · rw [join_of_ne (by rw [prio_canon]; exact ho), toExpr_bin]

/-! ## The specification predicates on the tree type -/

theorem prio_ne_of {b : PT F} {o : BinOp} (h : ∀ (o' : BinOp) (c d : Expr F), b.toExpr = o'.app c d → o'.level ≠ o.level) :
    b.prio ≠ o.level := by
  have := o.level_le
  cases b with
  | bin o' c d => exact h o' _ _ rfl
  | leaf x => simp only [prio]; omega
  | neg x => simp only [prio]; omega
  | fn k x => simp only [prio]; omega

theorem of_leftGrouped {e : Expr F} (h : LeftGrouped e) : ∃ t : PT F, t.toExpr = e ∧ t.Left := by
  induction h with
  | num n => exact ⟨.leaf (.num n), rfl, trivial⟩
  | var v => exact ⟨.leaf (.var v), rfl, trivial⟩
  | bin o a b _ _ hb i j =>
    obtain ⟨t, rfl, ht⟩ := i; obtain ⟨u, rfl, hu⟩ := j
    exact ⟨.bin o t u, rfl, ht, hu, prio_ne_of hb⟩
  | neg a _ i => obtain ⟨t, rfl, ht⟩ := i; exact ⟨.neg t, rfl, ht⟩
  | sin a _ i => obtain ⟨t, rfl, ht⟩ := i; exact ⟨.fn .sin t, rfl, ht⟩
  | cos a _ i => obtain ⟨t, rfl, ht⟩ := i; exact ⟨.fn .cos t, rfl, ht⟩
  | exp a _ i => obtain ⟨t, rfl, ht⟩ := i; exact ⟨.fn .exp t, rfl, ht⟩
  | ln a _ i => obtain ⟨t, rfl, ht⟩ := i; exact ⟨.fn .ln t, rfl, ht⟩

theorem of_unambiguous {e : Expr F} (h : Unambiguous e) : ∃ t : PT F, t.toExpr = e ∧ t.Plain := by
  induction h with
  | num n => exact ⟨.leaf (.num n), rfl, trivial⟩
  | var v => exact ⟨.leaf (.var v), rfl, trivial⟩
  | bin o a b _ _ hb i j =>
    obtain ⟨t, rfl, ht⟩ := i; obtain ⟨u, rfl, hu⟩ := j
    exact ⟨.bin o t u, rfl, ht, hu, hb.imp_right fun h => h.imp_right prio_ne_of⟩
  | neg a _ i => obtain ⟨t, rfl, ht⟩ := i; exact ⟨.neg t, rfl, ht⟩
  | sin a _ i => obtain ⟨t, rfl, ht⟩ := i; exact ⟨.fn .sin t, rfl, ht⟩
  | cos a _ i => obtain ⟨t, rfl, ht⟩ := i; exact ⟨.fn .cos t, rfl, ht⟩
  | exp a _ i => obtain ⟨t, rfl, ht⟩ := i; exact ⟨.fn .exp t, rfl, ht⟩
  | ln a _ i => obtain ⟨t, rfl, ht⟩ := i; exact ⟨.fn .ln t, rfl, ht⟩

variable [FloatOps F]

def ReadableLeaf : AstOperand F → Prop
  | .num n => ReadableNum n
  | .var v => ReadableName v.name

theorem of_readable {e : Expr F} (h : Readable e) : ∃ t : PT F, t.toExpr = e ∧ t.Over ReadableLeaf := by
  induction h with
  | num n h => exact ⟨.leaf (.num n), rfl, h⟩
  | var v h => exact ⟨.leaf (.var v), rfl, h⟩
  | bin o a b _ _ i j =>
    obtain ⟨t, rfl, ht⟩ := i; obtain ⟨u, rfl, hu⟩ := j
    exact ⟨.bin o t u, rfl, ht, hu⟩
  | neg a _ i => obtain ⟨t, rfl, ht⟩ := i; exact ⟨.neg t, rfl, ht⟩
  | sin a _ i => obtain ⟨t, rfl, ht⟩ := i; exact ⟨.fn .sin t, rfl, ht⟩
  | cos a _ i => obtain ⟨t, rfl, ht⟩ := i; exact ⟨.fn .cos t, rfl, ht⟩
  | exp a _ i => obtain ⟨t, rfl, ht⟩ := i; exact ⟨.fn .exp t, rfl, ht⟩
  | ln a _ i => obtain ⟨t, rfl, ht⟩ := i; exact ⟨.fn .ln t, rfl, ht⟩

/-! ## Leaves -/

inductive LeafCase (o : AstOperand F) : Prop
  | int (v : Int64) (n : Nat) : v.toInt = n → o = .num (SmartNum.ofI64 v) → leafText o = Nat.toDigits 10 n → LeafCase o
  | pi : o = .num SmartNum.pi → leafText o = ['p', 'i'] → LeafCase o
  | e : o = .num SmartNum.e → leafText o = ['e'] → LeafCase o
  | rat (a d : UInt64) : o = .num ⟨.rational ⟨1, a, d⟩, .nothing⟩ →
      leafText o = Nat.toDigits 10 a.toNat ++ '/' :: Nat.toDigits 10 d.toNat → LeafCase o
  | var (v : Variable) : o = .var v → leafText o = v.name.toList → ReadableName v.name → LeafCase o

theorem leafCase {o : AstOperand F} (h : ReadableLeaf o) : LeafCase o := by
  cases o with
  | var v => exact .var v rfl rfl h
  | num n =>
    rcases h with ⟨v, hv, rfl⟩ | rfl | rfl | ⟨a, d, rfl⟩
    · obtain ⟨n, hn⟩ := Int.eq_ofNat_of_zero_le hv
      refine .int v n hn rfl ?_
      have : (SmartNum.ofI64 v : SmartNum F).display = .ok (toString v.toInt) :=
        C17_display_int _ (SmartNum.Reachable.ofI64 (m := .debug) v).valid v (by simp [SmartNum.ofI64, SmartNum.ofVal, SmartNumVal.ofI64])
      rw [leafText, AstOperand.display, this, hn]
      exact Nat.toList_repr
    · exact .pi rfl rfl
    · exact .e rfl rfl
    · refine .rat a d rfl ?_
      simp [leafText, AstOperand.display, SmartNum.display, SmartNumVal.display, RationalNum.display]

theorem digit_ne {n : Nat} {c d : Char} (h : c ∈ Nat.toDigits 10 n) (hd : d.isDigit = false) : c ≠ d := by
  rintro rfl
  rw [Nat.isDigit_of_mem_toDigits (by decide) (by decide) h] at hd
  cases hd

theorem digits_leafy {n : Nat} {s : List Char} (hs : ∀ c ∈ s, c ≠ ' ' ∧ c ≠ '(' ∧ c ≠ ')') :
    Leafy (Nat.toDigits 10 n ++ s) := by
  obtain ⟨c, l, h⟩ := List.exists_cons_of_ne_nil (Nat.toDigits_ne_nil (n := n) (b := 10))
  refine ⟨by simp [h], fun c hc => ?_, ?_, ?_⟩
  · rcases List.mem_append.1 hc with hc | hc
    · exact ⟨digit_ne hc (by decide), digit_ne hc (by decide), digit_ne hc (by decide)⟩
    · exact hs c hc
  · intro d hd
    rw [h] at hd
    cases hd
    exact digit_ne (n := n) (by rw [h]; simp) (by decide)
  · intro k hk
    have hc : ∀ d : Char, d.isDigit = false → c ≠ d := fun d hd => digit_ne (n := n) (by rw [h]; simp) hd
    rw [h] at hk
    cases k <;> simp only [Fn.name, List.cons_append, List.cons_prefix_cons] at hk
    · exact hc 's' (by decide) hk.1.symm
    · exact hc 'c' (by decide) hk.1.symm
    · exact hc 'e' (by decide) hk.1.symm
    · exact hc 'l' (by decide) hk.1.symm

theorem leafy_of_readable (o : AstOperand F) (h : ReadableLeaf o) : Leafy (leafText o) := by
  cases leafCase h with
  | int v n _ _ h => rw [h]; simpa using digits_leafy (n := n) (s := []) (by simp)
  | pi _ h => rw [h]; exact ⟨by simp, by decide, by simp, by intro k; cases k <;> decide⟩
  | e _ h => rw [h]; exact ⟨by simp, by decide, by simp, by intro k; cases k <;> decide⟩
  | rat a d _ h =>
    rw [h]
    refine digits_leafy fun c hc => ?_
    rcases List.mem_cons.1 hc with rfl | hc
    · decide
    · exact ⟨digit_ne hc (by decide), digit_ne hc (by decide), digit_ne hc (by decide)⟩
  | var v _ h h' =>
    rw [h]
    obtain ⟨h1, h2, h3, h4, h5, h6⟩ := h'
    refine ⟨h1, h2, fun c hc => (h3 c hc).2, ?_⟩
    intro k
    cases k
    · exact h6 "sin" (by simp)
    · exact h6 "cos" (by simp)
    · exact h6 "exp" (by simp)
    · exact h6 "ln" (by simp)

theorem toDigits_inj {m n : Nat} (h : Nat.toDigits 10 m = Nat.toDigits 10 n) : m = n := by
  apply Nat.repr_injective
  rw [Nat.repr_eq_ofList_toDigits, Nat.repr_eq_ofList_toDigits, h]

theorem digits_slash {m n : Nat} {s t : List Char}
    (h : Nat.toDigits 10 m ++ '/' :: s = Nat.toDigits 10 n ++ '/' :: t) : m = n ∧ s = t := by
  rcases List.append_eq_append_iff.1 h with ⟨a, h1, h2⟩ | ⟨a, h1, h2⟩
  · cases a with
    | nil => exact ⟨toDigits_inj (by simpa using h1.symm), by simpa using h2⟩
    | cons c a =>
      simp only [List.cons_append, List.cons.injEq] at h2
      exact absurd h2.1.symm (digit_ne (n := n) (by rw [h1]; simp) (by decide))
  · cases a with
    | nil => exact ⟨toDigits_inj (by simpa using h1), by simpa using h2.symm⟩
    | cons c a =>
      simp only [List.cons_append, List.cons.injEq] at h2
      exact absurd h2.1.symm (digit_ne (n := m) (by rw [h1]; simp) (by decide))

/-- The kind of a leaf: what its text begins with. -/
theorem leafText_inj (o o' : AstOperand F) (ho : ReadableLeaf o) (ho' : ReadableLeaf o') (h : leafText o = leafText o') :
    o = o' := by
  have first : ∀ n (s : List Char), ∃ c l, Nat.toDigits 10 n ++ s = c :: l ∧ c.isDigit = true := by
    intro n s
    obtain ⟨c, l, h⟩ := List.exists_cons_of_ne_nil (Nat.toDigits_ne_nil (n := n) (b := 10))
    exact ⟨c, l ++ s, by rw [h]; rfl, Nat.isDigit_of_mem_toDigits (b := 10) (n := n) (by decide) (by decide) (by rw [h]; simp)⟩
  have noDigit : ∀ n (s l : List Char), (∀ c ∈ l.head?, c.isDigit = false) → Nat.toDigits 10 n ++ s ≠ l := by
    rintro n s l hl rfl
    obtain ⟨c, l, h1, h2⟩ := first n s
    rw [h1] at hl
    rw [hl c rfl] at h2; cases h2
  have noSlash : ∀ m n (s : List Char), Nat.toDigits 10 m ≠ Nat.toDigits 10 n ++ '/' :: s := by
    intro m n s h
    exact digit_ne (n := m) (c := '/') (d := '/') (by rw [h]; simp) (by decide) rfl
  have A := leafCase ho
  have B := leafCase ho'
  clear ho ho'
  have half : ∀ {o o' : AstOperand F}, leafText o = leafText o' → LeafCase o → LeafCase o' →
      (∃ (v : Int64) (n : Nat), v.toInt = n ∧ o = .num (SmartNum.ofI64 v) ∧ leafText o = Nat.toDigits 10 n) ∨
      (∃ a d, o = .num ⟨.rational ⟨1, a, d⟩, .nothing⟩ ∧
        leafText o = Nat.toDigits 10 (UInt64.toNat a) ++ '/' :: Nat.toDigits 10 (UInt64.toNat d)) → o = o' := by
    intro o o' h A B hc
    rcases hc with ⟨v, n, hv, rfl, ht⟩ | ⟨a, d, rfl, ht⟩ <;> rw [ht] at h <;> cases B with
    | int v' n' hv' e' h' =>
      rw [h'] at h
      first
        | (rw [e', Int64.toInt_inj.1 (hv.trans ((congrArg Nat.cast (toDigits_inj h)).trans hv'.symm))]; done)
        | exact absurd h.symm (noSlash _ _ _)
    | rat a' d' e' h' =>
      rw [h'] at h
      first
        | exact absurd h (noSlash _ _ _)
        | (obtain ⟨h1, h2⟩ := digits_slash h
           rw [e', UInt64.toNat_inj.1 h1, UInt64.toNat_inj.1 (toDigits_inj h2)])
    | pi e' h' =>
      rw [h'] at h
      first
        | exact absurd h (noDigit _ _ _ (by simp))
        | exact absurd ((List.append_nil _).trans h) (noDigit _ _ _ (by simp))
    | e e' h' =>
      rw [h'] at h
      first
        | exact absurd h (noDigit _ _ _ (by simp))
        | exact absurd ((List.append_nil _).trans h) (noDigit _ _ _ (by simp))
    | var v e' h' hn =>
      rw [h'] at h
      first
        | exact absurd h (noDigit _ _ _ (fun c hc => (hn.2.2.1 c hc).1))
        | exact absurd ((List.append_nil _).trans h) (noDigit _ _ _ (fun c hc => (hn.2.2.1 c hc).1))
  cases A with
  | int v n hv e ht => exact half h (.int v n hv e ht) B (.inl ⟨v, n, hv, e, ht⟩)
  | rat a d e ht => exact half h (.rat a d e ht) B (.inr ⟨a, d, e, ht⟩)
  | pi e1 h1 =>
    cases B with
    | int v n hv e ht => exact (half h.symm (.int v n hv e ht) (.pi e1 h1) (.inl ⟨v, n, hv, e, ht⟩)).symm
    | rat a d e ht => exact (half h.symm (.rat a d e ht) (.pi e1 h1) (.inr ⟨a, d, e, ht⟩)).symm
    | pi e2 h2 => rw [e1, e2]
    | e e2 h2 => rw [h1, h2] at h; cases h
    | var v e2 h2 hn =>
      rw [h1, h2] at h
      exact absurd (String.toList_inj.1 (h.symm.trans (by rfl : _ = "pi".toList))) hn.2.2.2.1
  | e e1 h1 =>
    cases B with
    | int v n hv e ht => exact (half h.symm (.int v n hv e ht) (.e e1 h1) (.inl ⟨v, n, hv, e, ht⟩)).symm
    | rat a d e ht => exact (half h.symm (.rat a d e ht) (.e e1 h1) (.inr ⟨a, d, e, ht⟩)).symm
    | pi e2 h2 => rw [h1, h2] at h; cases h
    | e e2 h2 => rw [e1, e2]
    | var v e2 h2 hn =>
      rw [h1, h2] at h
      exact absurd (String.toList_inj.1 (h.symm.trans (by rfl : _ = "e".toList))) hn.2.2.2.2.1
  | var v e1 h1 hn =>
    cases B with
    | int v' n hv e ht => exact (half h.symm (.int v' n hv e ht) (.var v e1 h1 hn) (.inl ⟨v', n, hv, e, ht⟩)).symm
    | rat a d e ht => exact (half h.symm (.rat a d e ht) (.var v e1 h1 hn) (.inr ⟨a, d, e, ht⟩)).symm
    | pi e2 h2 =>
      rw [h1, h2] at h
      exact absurd (String.toList_inj.1 (h.trans (by rfl : _ = "pi".toList))) hn.2.2.2.1
    | e e2 h2 =>
      rw [h1, h2] at h
      exact absurd (String.toList_inj.1 (h.trans (by rfl : _ = "e".toList))) hn.2.2.2.2.1
    | var v' e2 h2 hn' =>
      rw [h1, h2] at h
      have := String.toList_inj.1 h
      rw [e1, e2]
      cases v; cases v'; simp_all

/-- Left-grouped trees over readable leaves are determined by their text. -/
theorem body_inj {t t' : PT F} (h : t.Left) (h' : t'.Left) (o : t.Over ReadableLeaf) (o' : t'.Over ReadableLeaf)
    (e : t.body = t'.body) : t = t' := by
  have hb : ∀ t : PT F, t.text 1 = t.body := by
    intro t
    rw [text, par, if_neg]
    have : 1 ≤ t.prio := by
      cases t with
      | bin o _ _ => exact le_trans (by decide) o.level_le.1
      | _ => simp [prio]
    omega
  refine (text_inj (S := ReadableLeaf) leafy_of_readable leafText_inj _ 1 t t' [] [] le_rfl (by decide) le_rfl h h' o o'
    (.inl rfl) (.inl rfl) ?_).1
  rw [hb, hb, e]

end PT

open PT

/-! ## Regrouping does not change the text -/

section
variable [FloatOps F]

theorem raw_un_bind (op : AstOperator) (a : Expr F) (p : Nat) :
    (Expr.mk (.operator op) [a]).toStringRaw p = (a.toStringRaw op.priority).bind fun s =>
      .ok (if op.priority < p then "(" ++ (op.symbol ++ s) ++ ")" else op.symbol ++ s) := by
  simp only [Expr.toStringRaw, Expr.toStringRawList, Expr.index, List.length_cons, List.length_nil]
  simp only [List.getElem?_cons_zero]
  rw [if_neg (by decide)]
  cases a.toStringRaw op.priority with
  | ok s => simp only [Res.bind, Res.ok_bind]; split_ifs <;> rfl
  | panic => simp only [Res.bind]; split_ifs <;> rfl

theorem raw_bin_bind (op : AstOperator) (a b : Expr F) (p : Nat) :
    (Expr.mk (.operator op) [a, b]).toStringRaw p = (a.toStringRaw op.priority).bind fun s =>
      (b.toStringRaw op.priority).bind fun t =>
      .ok (if op.priority < p then "(" ++ (s ++ " " ++ op.symbol ++ " " ++ t) ++ ")"
        else s ++ " " ++ op.symbol ++ " " ++ t) := by
  simp only [Expr.toStringRaw, Expr.toStringRawList, Expr.index, List.length_cons, List.length_nil]
  simp only [List.getElem?_cons_zero, List.getElem?_cons_succ]
  rw [if_pos trivial]
  cases a.toStringRaw op.priority with
  | ok s =>
    cases b.toStringRaw op.priority with
    | ok t => simp only [Res.bind, Res.ok_bind]; split_ifs <;> rfl
    | panic => simp only [Res.bind]; split_ifs <;> rfl
  | panic => simp only [Res.bind]; split_ifs <;> rfl

theorem app_raw (o : BinOp) : ∃ s : String, ∀ (a b : Expr F) p, (o.app a b).toStringRaw p =
    (a.toStringRaw o.level).bind fun x => (b.toStringRaw o.level).bind fun y =>
      .ok (if o.level < p then "(" ++ (x ++ " " ++ s ++ " " ++ y) ++ ")" else x ++ " " ++ s ++ " " ++ y) := by
  cases o
  · exact ⟨_, fun a b p => raw_bin_bind genOpAdd a b p⟩
  · exact ⟨_, fun a b p => raw_bin_bind genOpSub a b p⟩
  · exact ⟨_, fun a b p => raw_bin_bind genOpMul a b p⟩
  · exact ⟨_, fun a b p => raw_bin_bind genOpDiv a b p⟩
  · exact ⟨_, fun a b p => raw_bin_bind genOpPow a b p⟩

theorem Regroup.raw_eq {a b : Expr F} (h : Regroup a b) (p : Nat) : a.toStringRaw p = b.toStringRaw p := by
  induction h generalizing p with
  | refl => rfl
  | symm _ ih => exact (ih p).symm
  | trans _ _ i j => exact (i p).trans (j p)
  | shift o o' a b c h =>
    obtain ⟨s, hs⟩ := app_raw (F := F) o
    obtain ⟨s', hs'⟩ := app_raw (F := F) o'
    simp only [hs, hs', h, lt_irrefl, if_false]
    cases a.toStringRaw o'.level <;> cases b.toStringRaw o'.level <;> cases c.toStringRaw o'.level <;>
      simp only [Res.bind, String.append_assoc]
  | bin o _ _ i j => obtain ⟨s, hs⟩ := app_raw (F := F) o; simp only [hs, i, j]
  | neg _ ih => exact (raw_un_bind _ _ _).trans ((congrArg (fun z => Res.bind z _) (ih _)).trans (raw_un_bind _ _ _).symm)
  | sin _ ih => exact (raw_un_bind _ _ _).trans ((congrArg (fun z => Res.bind z _) (ih _)).trans (raw_un_bind _ _ _).symm)
  | cos _ ih => exact (raw_un_bind _ _ _).trans ((congrArg (fun z => Res.bind z _) (ih _)).trans (raw_un_bind _ _ _).symm)
  | exp _ ih => exact (raw_un_bind _ _ _).trans ((congrArg (fun z => Res.bind z _) (ih _)).trans (raw_un_bind _ _ _).symm)
  | ln _ ih => exact (raw_un_bind _ _ _).trans ((congrArg (fun z => Res.bind z _) (ih _)).trans (raw_un_bind _ _ _).symm)

/-! ## C47 -/

/-- C47: two readable expressions print alike exactly if they differ only in the grouping of operators that bind equally
tightly. -/
theorem C47_iff (a b : Expr F) (ha : Readable a) (hb : Readable b) : a.display = b.display ↔ Regroup a b := by
  refine ⟨fun h => ?_, fun h => h.raw_eq 0⟩
  obtain ⟨t, rfl, ht⟩ := of_readable ha
  obtain ⟨u, rfl, hu⟩ := of_readable hb
  rw [(regroup_canon t).raw_eq 0 |> (show _ = _ → t.toExpr.display = t.canon.toExpr.display from id),
    (regroup_canon u).raw_eq 0 |> (show _ = _ → u.toExpr.display = u.canon.toExpr.display from id),
    display_text, display_text] at h
  have h' := String.ofList_injective (Res.ok.inj h)
  have := body_inj (left_canon t) (left_canon u) (over_canon ht) (over_canon hu) h'
  exact (regroup_canon t).trans (this ▸ (regroup_canon u).symm)

/-- C47: on expressions in which no right operand binds as tightly as its operator, the text determines the expression. -/
theorem C47_left_grouped (a b : Expr F) (ha : Readable a) (hb : Readable b) (la : LeftGrouped a) (lb : LeftGrouped b)
    (h : a.display = b.display) : a = b := by
  obtain ⟨t, rfl, ht⟩ := of_readable ha
  obtain ⟨u, rfl, hu⟩ := of_readable hb
  obtain ⟨t', e, lt⟩ := of_leftGrouped la
  obtain ⟨u', e', lu⟩ := of_leftGrouped lb
  cases toExpr_inj e
  cases toExpr_inj e'
  rw [display_text, display_text] at h
  rw [body_inj lt lu ht hu (String.ofList_injective (Res.ok.inj h))]

/-- C47: if in addition sums in sums and products in products are allowed on the right, the text still determines the
value, at every assignment and for every meaning of the numbers. -/
theorem C47_value (a b : Expr F) (ha : Readable a) (hb : Readable b) (la : Unambiguous a) (lb : Unambiguous b)
    (h : a.display = b.display) (ν : SmartNum F → Option ℝ) (env : Env) : denote ν env a = denote ν env b := by
  obtain ⟨t, rfl, ht⟩ := of_readable ha
  obtain ⟨u, rfl, hu⟩ := of_readable hb
  obtain ⟨t', e, lt⟩ := of_unambiguous la
  obtain ⟨u', e', lu⟩ := of_unambiguous lb
  cases toExpr_inj e
  cases toExpr_inj e'
  rw [(regroup_canon t).raw_eq 0 |> (show _ = _ → t.toExpr.display = t.canon.toExpr.display from id),
    (regroup_canon u).raw_eq 0 |> (show _ = _ → u.toExpr.display = u.canon.toExpr.display from id),
    display_text, display_text] at h
  have := body_inj (left_canon t) (left_canon u) (over_canon ht) (over_canon hu) (String.ofList_injective (Res.ok.inj h))
  rw [← denote_canon lt, this, denote_canon lu]

/-- C47: the restriction is needed: a - (b - c) and (a - b) - c print alike for all operands, and for readable variables
have different values. -/
theorem C47_subtraction_ambiguous :
    (∀ a b c : Expr F, (a.sub (b.sub c)).display = ((a.sub b).sub c).display) ∧
    (∀ a b c : Expr F, (a.div (b.div c)).display = ((a.div b).div c).display) ∧
    ∃ (a b : Expr F) (env : Env), Readable a ∧ Readable b ∧ a.display = b.display ∧
      denote SmartNum.exactReal env a ≠ denote SmartNum.exactReal env b := by
  have rv : ∀ s ∈ ["a", "b", "c"], ReadableName s := by
    intro s hs
    simp only [List.mem_cons, List.not_mem_nil, or_false] at hs
    rcases hs with rfl | rfl | rfl <;> exact ⟨by decide, by decide, by decide, by decide, by decide, by decide⟩
  have h1 : ∀ a b c : Expr F, (a.sub (b.sub c)).display = ((a.sub b).sub c).display := fun a b c =>
    (Regroup.shift .sub .sub a b c rfl).raw_eq 0
  refine ⟨h1, fun a b c => (Regroup.shift .div .div a b c rfl).raw_eq 0,
    (newVariable "a").sub ((newVariable "b").sub (newVariable "c")),
    ((newVariable "a").sub (newVariable "b")).sub (newVariable "c"), fun _ => 1, ?_, ?_, h1 _ _ _, ?_⟩
  · exact .bin .sub _ _ (.var ⟨"a"⟩ (rv _ (by simp))) (.bin .sub _ _ (.var ⟨"b"⟩ (rv _ (by simp))) (.var ⟨"c"⟩ (rv _ (by simp))))
  · exact .bin .sub _ _ (.bin .sub _ _ (.var ⟨"a"⟩ (rv _ (by simp))) (.var ⟨"b"⟩ (rv _ (by simp)))) (.var ⟨"c"⟩ (rv _ (by simp)))
  · simp only [denote_sub', newVariable, denote, opValue]
    norm_num

/-- C47: negative literals are not readable: the literal -1 plus b prints like the negation of 1 + b. -/
theorem C47_negative_literal_ambiguous (b : Variable) :
    ((ofI64 (-1)).add (ofVar b) : Expr F).display = ((ofI64 1).add (ofVar b) : Expr F).neg.display := by
  have h1 : (ofI64 (-1) : Expr F).toStringRaw 2 = .ok "-1" := by krfl
  have h2 : (ofI64 1 : Expr F).toStringRaw 2 = .ok "1" := by krfl
  have h3 : (ofVar b : Expr F).toStringRaw 2 = .ok b.name := rfl
  have e1 := raw_bin genOpAdd h1 h3 0
  have e2 := raw_un genOpNeg (raw_bin genOpAdd h2 h3 1) 0
  refine e1.trans (Eq.trans ?_ e2.symm)
  simp [genOpAdd, genOpNeg, String.ext_iff]

/-- Non-vacuous: x * (y + 1/2) ^ 2 / sin(pi * x) - z is readable and left-grouped. -/
example : let x : Expr Unit := newVariable "x"
    let e := (x.mul (((newVariable "y").add (ofNum ⟨.rational ⟨1, 1, 2⟩, .nothing⟩)).pow (ofI64 2))).sub
      ((Expr.pi.mul x).sin.neg)
    Readable e ∧ LeftGrouped e ∧ e.display = .ok "x * (y + 1/2) ^ 2 - (-sin(pi * x))" := by
  intro x e
  have rx : ReadableName "x" := ⟨by decide, by decide, by decide, by decide, by decide, by decide⟩
  have ry : ReadableName "y" := ⟨by decide, by decide, by decide, by decide, by decide, by decide⟩
  refine ⟨?_, ?_, by decide +kernel⟩
  · exact .bin .sub _ _ (.bin .mul _ _ (.var ⟨"x"⟩ rx) (.bin .pow _ _ (.bin .add _ _ (.var ⟨"y"⟩ ry)
      (.num _ (.inr (.inr (.inr ⟨1, 2, rfl⟩))))) (.num _ (.inl ⟨2, by decide, rfl⟩))))
      (.neg _ (.sin _ (.bin .mul _ _ (.num _ (.inr (.inl rfl))) (.var ⟨"x"⟩ rx))))
  · have v : ∀ (o : BinOp) (s : String) (o' : BinOp) (c d : Expr Unit), newVariable s = o'.app c d → o'.level ≠ o.level := by
      intro o s o' c d h; cases o' <;> cases h
    have n : ∀ (o : BinOp) (s : SmartNum Unit) (o' : BinOp) (c d : Expr Unit), ofNum s = o'.app c d → o'.level ≠ o.level := by
      intro o s o' c d h; cases o' <;> cases h
    refine .bin .sub _ _ (.bin .mul _ _ (.var ⟨"x"⟩) (.bin .pow _ _ (.bin .add _ _ (.var ⟨"y"⟩) (.num _) (n _ _))
      (.num _) (n _ _)) ?_) (.neg _ (.sin _ (.bin .mul _ _ (.num _) (.var ⟨"x"⟩) (v _ _)))) ?_
    · intro o c d h
      cases o <;> first | decide | (exfalso; simp [BinOp.app, Expr.pow, Expr.mul, genOpPow, genOpMul] at h)
    · intro o c d h
      cases o <;> (exfalso; simp [BinOp.app, Expr.neg, Expr.add, Expr.sub, Expr.mul, Expr.div, Expr.pow] at h)

end
end SymRust
