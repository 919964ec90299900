import Verif.Props.Taylor
import Verif.Props.Display
import Verif.Props.Semantics
import Verif.Props.Readback
import Verif.Props.Main
import Verif.Proofs.Kernel
import Verif.Spec.TaylorText
/-! # Reading a printed expansion: property C79 -/

namespace SymRust
variable {F : Type} [FloatOps F]
open Expr

theorem numAggregate_div_num_form {m : Mode} {v c : Expr F} {f : SmartNum F}
    (h : (v.div (ofNum f)).numAggregate m = .ok c) : (∃ z, c = ofNum z) ∨ ∃ l : Expr F, c = l.div (ofNum f) := by
  rw [numAggregate_div, numAggregate_ofNum] at h
  cases hv : v.numAggregate m with
  | panic => rw [hv] at h; cases h
  | ok l =>
    rw [hv] at h
    unfold divEvalRule at h
    simp only [pop_one, pop_two, Res.ok_bind] at h
    split_ifs at h
    · simp only [Res.bind_eq_ok] at h
      obtain ⟨_, -, _, -, z, -, h⟩ := h
      exact .inl ⟨z, (Res.ok.inj h).symm⟩
    · exact .inl ⟨_, (Res.ok.inj h).symm⟩
    · exact .inr ⟨_, (Res.ok.inj h).symm⟩

/-- Every coefficient is a number or a quotient by a number. -/
theorem coefficient_form {m : Mode} {e a : Expr F} {x : Variable} {n : UInt64} {t : PartialExpansion F}
    (h : e.taylorExpansion m x a n = .ok t) {c : Expr F} (hc : c ∈ t.coefficient) :
    (∃ z, c = ofNum z) ∨ ∃ (l : Expr F) (f : SmartNum F), c = l.div (ofNum f) := by
  obtain ⟨h1, -, -, -, -, h2⟩ := C33_shape m e a x n t h
  obtain ⟨k, hk, rfl⟩ := List.getElem_of_mem hc
  obtain ⟨d, s, v, c, -, -, -, g4, g5, -⟩ := h2 k (by omega)
  rw [List.getElem?_eq_getElem hk] at g5
  cases g5
  exact (numAggregate_div_num_form g4).imp id fun ⟨l, hl⟩ => ⟨l, _, hl⟩

theorem inside_coefficient {c : Expr F} (h : (∃ z, c = ofNum z) ∨ ∃ (l : Expr F) (f : SmartNum F), c = l.div (ofNum f)) (s : String) :
    inside 3 c s = s := by
  rcases h with ⟨z, rfl⟩ | ⟨l, f, rfl⟩ <;> rfl

theorem display_mul' {a b : Expr F} (ha : Tree a) (hb : Tree b) {s t : String} (h : a.display = .ok s)
    (h' : b.display = .ok t) : (a.mul b).display = .ok (inside 3 a s ++ " * " ++ inside 3 b t) := by
  rw [Expr.mul, display_bin genOpMul ha hb h h']; simp [genOpMul, String.append_assoc]

theorem display_add' {a b : Expr F} (ha : Tree a) (hb : Tree b) {s t : String} (h : a.display = .ok s)
    (h' : b.display = .ok t) : (a.add b).display = .ok (inside 2 a s ++ " + " ++ inside 2 b t) := by
  rw [Expr.add, display_bin genOpAdd ha hb h h']; simp [genOpAdd, String.append_assoc]

theorem tree_monomial {b c : Expr F} (hb : Tree b) (hc : Tree c) (k : Nat) : Tree (monomial b (k, c)) :=
  .mul _ _ hc (.pow _ _ hb (.num _ trivial))

theorem termText_monomial {b : Expr F} {t : Nat × Expr F} (hb : Tree b) (ht : Tree t.2)
    (hc : (∃ z, t.2 = ofNum z) ∨ ∃ (l : Expr F) (f : SmartNum F), t.2 = l.div (ofNum f)) {s : String} (h : termText b t = .ok s) :
    ∃ u, (monomial b t).display = .ok u ∧ s = u ++ " + " := by
  unfold termText at h
  simp only [Res.bind_eq_ok] at h
  obtain ⟨c, h1, p, h2, h3⟩ := h
  refine ⟨_, display_mul' ht (.pow _ _ hb (.num _ trivial)) h1 h2, ?_⟩
  rw [inside_coefficient hc]
  exact (Res.ok.inj h3).symm

theorem polynomial_text {b : Expr F} (hb : Tree b) (ts : List (Nat × Expr F))
    (hts : ∀ t ∈ ts, Tree t.2 ∧ ((∃ z, t.2 = ofNum z) ∨ ∃ (l : Expr F) (f : SmartNum F), t.2 = l.div (ofNum f))) (p : Expr F) (hp : Tree p)
    (hp2 : ∀ u, inside 2 p u = u) (u s : String) (hu : p.display = .ok u)
    (hs : concatTexts (ts.map (termText b)) = .ok s) :
    ∃ v, (ts.foldl (fun p u => p.add (monomial b u)) p).display = .ok v ∧ u ++ " + " ++ s = v ++ " + " := by
  induction ts generalizing p u s with
  | nil =>
    obtain rfl : "" = s := Res.ok.inj hs
    exact ⟨u, hu, by simp⟩
  | cons t ts ih =>
    rw [List.map_cons, concatTexts] at hs
    simp only [Res.bind_eq_ok] at hs
    obtain ⟨s1, h1, s2, h2, h3⟩ := hs
    obtain ⟨w1, w2⟩ := hts t (by simp)
    obtain ⟨u', h4, rfl⟩ := termText_monomial hb w1 w2 h1
    have hm : Tree (monomial b t) := tree_monomial hb w1 t.1
    have h5 := display_add' hp hm hu h4
    rw [hp2, show inside 2 (monomial b t) u' = u' from rfl] at h5
    obtain ⟨v, h6, h7⟩ := ih (fun t ht => hts t (by simp [ht])) (p.add (monomial b t)) (.add _ _ hp hm) (fun _ => rfl) _ s2 h5 h2
    refine ⟨v, h6, ?_⟩
    rw [← h7, ← Res.ok.inj h3]
    simp [String.append_assoc]

/-- C79: the printed text of an expansion is, letter for letter, the text of the polynomial expression
c0 * b^0 + c1 * b^1 + … (only the coefficients that are not the exact zero; b is x - a, aggregated) followed by
` + O(b^(n+1))`; if all coefficients are the exact zero it is only the O-term. -/
theorem C79_text (m m' m'' : Mode) (e a : Expr F) (he : Built m' e) (ha : Built m'' a) (x : Variable) (n : UInt64)
    (t : PartialExpansion F) (h : e.taylorExpansion m x a n = .ok t) (s : String) (hs : t.display m = .ok s) :
    ∃ b o q, ((ofVar x).sub a).numAggregate m = .ok b ∧ Expr.ofU64 m (n + 1) = .ok o ∧ (b.pow o).display = .ok q ∧
      (shownTerms t.coefficient = [] → s = "O(" ++ q ++ ")") ∧
      ∀ u us, shownTerms t.coefficient = u :: us → ∃ p, (polynomial b u us).display = .ok p ∧
        s = p ++ " + O(" ++ q ++ ")" := by
  obtain ⟨b, terms, w, q, h1, h2, -, h4, h5, h6⟩ := C38_display m t s hs
  obtain ⟨-, g1, g2, g3, -⟩ := C33_shape m e a x n t h
  rw [g2, g3] at h1
  rw [g1] at h4
  have hb : Tree b := tree_numAggregate (.sub _ _ (.var x) ha.tree) h1
  have hform : ∀ t' ∈ shownTerms t.coefficient, Tree t'.2 ∧
      ((∃ z, t'.2 = ofNum z) ∨ ∃ (l : Expr F) (f : SmartNum F), t'.2 = l.div (ofNum f)) := by
    intro t' ht'
    have hq : t'.2 ∈ t.coefficient := (List.of_mem_zip (List.mem_filter.mp ht').1).2
    refine ⟨?_, coefficient_form h hq⟩
    rw [taylorExpansion_state] at h
    obtain ⟨s', hs', h⟩ := Out.bind_eq_ok.mp h
    cases h
    exact (taylorState_wf (numClosed_true m) (fun _ _ _ => trivial) ha.tree he.tree _ hs').1 _ hq
  refine ⟨b, ofNum w, q, h1, by rw [Expr.ofU64, h4]; rfl, h5, fun h0 => ?_, fun u us hu => ?_⟩
  · rw [h0] at h2
    rw [h6, ← Res.ok.inj h2]; simp
  · rw [hu, List.map_cons, concatTexts] at h2
    rw [hu] at hform
    simp only [Res.bind_eq_ok] at h2
    obtain ⟨s1, k1, s2, k2, k3⟩ := h2
    obtain ⟨w1, w2⟩ := hform u (by simp)
    obtain ⟨u', k4, rfl⟩ := termText_monomial hb w1 w2 k1
    obtain ⟨v, k5, k6⟩ := polynomial_text hb us (fun t ht => hform t (by simp [ht])) (monomial b u)
      (tree_monomial hb w1 u.1) (fun _ => rfl) u' s2 k4 k2
    refine ⟨v, k5, ?_⟩
    rw [h6, ← Res.ok.inj k3]
    have : u' ++ " + " ++ s2 ++ "O(" = v ++ " + O(" := by
      rw [k6]; simp [String.append_assoc]
    rw [show u' ++ " + " ++ s2 ++ "O(" ++ q ++ ")" = (u' ++ " + " ++ s2 ++ "O(") ++ q ++ ")" from rfl, this]

theorem powValue_nat (w : ℝ) (k : ℕ) : powValue w (k : ℝ) = some (w ^ k) := by
  unfold powValue
  rw [if_pos, Real.rpow_natCast]
  rcases lt_trichotomy w 0 with h | h | h
  · exact .inr (.inr ⟨h, k, by simp⟩)
  · exact .inr (.inl ⟨h, by positivity⟩)
  · exact .inl h

theorem denote_monomial {env : Env} {b c : Expr F} {w v : ℝ} {k : Nat} (hk : k < 2 ^ 63)
    (hb : denote SmartNum.exactReal env b = some w) (hc : denote SmartNum.exactReal env c = some v) :
    denote SmartNum.exactReal env (monomial b (k, c)) = some (v * w ^ k) := by
  refine denote_mul.2 ⟨_, _, hc, denote_pow.2 ⟨w, k, hb, ?_, powValue_nat w k⟩, rfl⟩
  rw [denote_int, show (Int64.ofNat (k, c).1).toInt = (k : Int) from
    toInt_ofInt_of_inI64 (z := (k : Int)) (by unfold InI64; omega)]
  simp

theorem denote_polynomial {env : Env} {b : Expr F} {w : ℝ} (hb : denote SmartNum.exactReal env b = some w)
    (f : Nat → ℝ) (ts : List (Nat × Expr F))
    (hts : ∀ t ∈ ts, t.1 < 2 ^ 63 ∧ denote SmartNum.exactReal env t.2 = some (f t.1)) (p : Expr F) (v : ℝ)
    (hp : denote SmartNum.exactReal env p = some v) :
    denote SmartNum.exactReal env (ts.foldl (fun p u => p.add (monomial b u)) p) =
      some (v + (ts.map fun t => f t.1 * w ^ t.1).sum) := by
  induction ts generalizing p v with
  | nil => simpa using hp
  | cons t ts ih =>
    obtain ⟨h1, h2⟩ := hts t (by simp)
    rw [List.foldl_cons, ih (fun t ht => hts t (by simp [ht])) _ _
      (denote_add.2 ⟨_, _, hp, denote_monomial h1 hb h2, rfl⟩), List.map_cons, List.sum_cons, add_assoc]

theorem sum_filter_zero {α : Type} (l : List α) (q : α → Bool) (f : α → ℝ) (h : ∀ a ∈ l, q a = false → f a = 0) :
    ((l.filter q).map f).sum = (l.map f).sum := by
  induction l with
  | nil => rfl
  | cons a l ih =>
    have ih := ih fun a ha => h a (by simp [ha])
    by_cases hq : q a = true
    · rw [List.filter_cons_of_pos hq, List.map_cons, List.map_cons, List.sum_cons, List.sum_cons, ih]
    · rw [List.filter_cons_of_neg hq, List.map_cons, List.sum_cons, ih, h a (by simp) (by simpa using hq), zero_add]

theorem denote_isZero {env : Env} {c : Expr F} (hc : WF SmartNum.Valid c) (hz : c.isZero = true) {v : ℝ}
    (h : denote SmartNum.exactReal env c = some v) : v = 0 := by
  obtain ⟨n, rfl⟩ : ∃ n, c = ofNum n := by
    cases hc with
    | num n hn => exact ⟨n, rfl⟩
    | _ => cases hz
  have hn : n.isZero = true := hz
  have h0 : n.exact? = some 0 := (WF.num_iff.1 hc).zero_iff.1 hn
  have h : SmartNum.exactReal n = some v := h
  have ht : n.tag = .zero := by simpa [SmartNum.isZero] using hn
  rw [SmartNum.exactReal, ht, h0] at h
  simpa using h.symm

/-- C79: so the text denotes the Taylor polynomial: where the coefficients have values `y k` and `x - a` has the value `w`,
the polynomial whose text is printed has the value Σ y k (x - p)^k, p the value of the point; if no coefficient is
printed, that sum is 0. -/
theorem C79_value (m' m'' : Mode) (e a : Expr F) (he : Built m' e) (ha : Built m'' a) (x : Variable) (n : UInt64)
    (t : PartialExpansion F) (h : e.taylorExpansion .strict x a n = .ok t) (hsa : Safe SmartNum.exactReal Set.univ a)
    (b : Expr F) (hb : ((ofVar x).sub a).numAggregate .strict = .ok b) (env : Env) (p w : ℝ)
    (hp : denote SmartNum.exactReal env a = some p) (hw : denote SmartNum.exactReal env b = some w) (y : Nat → ℝ)
    (hy : ∀ k, k ≤ n.toNat → ∃ c, t.coefficient[k]? = some c ∧ denote SmartNum.exactReal env c = some (y k)) :
    (∀ u us, shownTerms t.coefficient = u :: us → denote SmartNum.exactReal env (polynomial b u us) =
      some (∑ k ∈ Finset.range (n.toNat + 1), y k * (env x - p) ^ k)) ∧
    (shownTerms t.coefficient = [] → ∑ k ∈ Finset.range (n.toNat + 1), y k * (env x - p) ^ k = 0) := by
  obtain ⟨g1, -, -, -, -, g2⟩ := C33_shape .strict e a x n t h
  have hwp : w = env x - p := (C20_value m'' _ b (.sub _ _ (.var x) ha) (safe_sub.2 ⟨safe_ofVar _, hsa⟩) hb env _
    (denote_sub.2 ⟨_, _, denote_ofVar _ _ _, hp, rfl⟩)).1 w hw
  subst hwp
  have hval : ∀ c ∈ t.coefficient, WF SmartNum.Valid c := by
    rw [taylorExpansion_state] at h
    obtain ⟨s', hs', h⟩ := Out.bind_eq_ok.mp h
    cases h
    exact (taylorState_wf (numClosed_valid .strict) (fun _ _ => SmartNum.valid_ofU64) ha.valid he.valid _ hs').1
  have hmem : ∀ u ∈ (List.range t.coefficient.length).zip t.coefficient, u.1 < 2 ^ 63 ∧ u.2 ∈ t.coefficient ∧
      denote SmartNum.exactReal env u.2 = some (y u.1) := by
    intro u hu
    obtain ⟨i, hi, rfl⟩ := List.getElem_of_mem hu
    have hi' : i < t.coefficient.length := by simpa using hi
    rw [List.getElem_zip]
    simp only [List.getElem_range]
    obtain ⟨c, k1, k2⟩ := hy i (by omega)
    rw [List.getElem?_eq_getElem hi'] at k1
    cases k1
    obtain ⟨-, -, -, -, -, -, -, -, -, g3⟩ := g2 i (by omega)
    have g3 := g3 (by simp)
    have := Int64.toInt_lt (Int64.ofNat i.factorial)
    have := Nat.self_le_factorial i
    refine ⟨by omega, List.getElem_mem _, k2⟩
  have hsum : ((shownTerms t.coefficient).map fun u => y u.1 * (env x - p) ^ u.1).sum =
      ∑ k ∈ Finset.range (n.toNat + 1), y k * (env x - p) ^ k := by
    unfold shownTerms
    rw [sum_filter_zero _ _ _ fun u hu hq => ?_]
    · rw [show (fun u : ℕ × Expr F => y u.1 * (env x - p) ^ u.1) = (fun k => y k * (env x - p) ^ k) ∘ Prod.fst from rfl,
        ← List.map_map, List.map_fst_zip (by simp), g1]
      induction n.toNat + 1 with
      | zero => rfl
      | succ k ih => rw [List.range_succ, List.map_append, List.sum_append, ih, Finset.sum_range_succ]; simp
    · obtain ⟨-, k1, k2⟩ := hmem u hu
      rw [denote_isZero (hval _ k1) (by simpa using hq) k2, zero_mul]
  refine ⟨fun u us hu => ?_, fun h0 => by rw [← hsum, h0]; rfl⟩
  rw [hu, List.map_cons, List.sum_cons] at hsum
  have hts : ∀ t' ∈ u :: us, t'.1 < 2 ^ 63 ∧ denote SmartNum.exactReal env t'.2 = some (y t'.1) := by
    intro t' ht'
    rw [← hu] at ht'
    obtain ⟨k1, -, k2⟩ := hmem t' (List.mem_filter.mp ht').1
    exact ⟨k1, k2⟩
  obtain ⟨k1, k2⟩ := hts u (by simp)
  rw [polynomial, denote_polynomial hw y us (fun t ht => hts t (by simp [ht])) _ _ (denote_monomial k1 hw k2), hsum]

theorem readable_monomial {b c : Expr F} {k : Nat} (hb : Readable b ∧ Unambiguous b) (hk : k < 2 ^ 63) (hr : Readable c)
    (hu : Unambiguous c) : Readable (monomial b (k, c)) ∧ Unambiguous (monomial b (k, c)) := by
  have hz : (Int64.ofNat k).toInt = (k : Int) := toInt_ofInt_of_inI64 (z := (k : Int)) (by unfold InI64; omega)
  refine ⟨.bin .mul _ _ hr (.bin .pow _ _ hb.1 (.num _ (.inl ⟨_, by rw [hz]; omega, rfl⟩))),
    .bin .mul _ _ hu (.bin .pow _ _ hb.2 (.num _) (.inr (.inr fun o' c d h => ?_))) (.inr (.inl rfl))⟩
  cases o' <;> cases h

theorem shownTerms_index {e a : Expr F} {x : Variable} {n : UInt64} {t : PartialExpansion F}
    (h : e.taylorExpansion .strict x a n = .ok t) {u : Nat × Expr F} (hu : u ∈ shownTerms t.coefficient) :
    u.1 < 2 ^ 63 := by
  obtain ⟨g1, -, -, -, -, g2⟩ := C33_shape .strict e a x n t h
  have h1 := (List.of_mem_zip (List.mem_filter.mp hu).1).1
  rw [List.mem_range, g1] at h1
  obtain ⟨-, -, -, -, -, -, -, -, -, g3⟩ := g2 u.1 (by omega)
  have g3 := g3 (by simp)
  have := Int64.toInt_lt (Int64.ofNat u.1.factorial)
  have := Nat.self_le_factorial u.1
  omega

/-- Printed without negative numbers and without ambiguous grouping. -/
theorem readable_polynomial {b : Expr F} (hb : Readable b ∧ Unambiguous b) (ts : List (Nat × Expr F))
    (hts : ∀ t ∈ ts, t.1 < 2 ^ 63 ∧ Readable t.2 ∧ Unambiguous t.2) (p : Expr F) (hp : Readable p ∧ Unambiguous p) :
    Readable (ts.foldl (fun p u => p.add (monomial b u)) p) ∧
    Unambiguous (ts.foldl (fun p u => p.add (monomial b u)) p) := by
  induction ts generalizing p with
  | nil => exact hp
  | cons t ts ih =>
    obtain ⟨h1, h2, h3⟩ := hts t (by simp)
    refine ih (fun t ht => hts t (by simp [ht])) _ ?_
    have hm := readable_monomial hb h1 h2 h3
    exact ⟨.bin .add _ _ hp.1 hm.1, .bin .add _ _ hp.2 hm.2 (.inl rfl)⟩

/-- C79: reading the text back.  If the printed coefficients and `x - a` are readable and unambiguous (C47: no negative
numbers, no floats, no ambiguous grouping), then every readable, unambiguous expression `r` such that the printed
expansion is the text of `r` followed by the O-term has the value of the Taylor polynomial. -/
theorem C79_read (m' m'' : Mode) (e a : Expr F) (he : Built m' e) (ha : Built m'' a) (x : Variable) (n : UInt64)
    (t : PartialExpansion F) (h : e.taylorExpansion .strict x a n = .ok t) (hsa : Safe SmartNum.exactReal Set.univ a)
    (b o : Expr F) (hb : ((ofVar x).sub a).numAggregate .strict = .ok b) (ho : Expr.ofU64 .strict (n + 1) = .ok o)
    (s p q : String) (hs : t.display .strict = .ok s) (hq : (b.pow o).display = .ok q) (env : Env) (v w : ℝ)
    (hv : denote SmartNum.exactReal env a = some v) (hw : denote SmartNum.exactReal env b = some w) (y : Nat → ℝ)
    (hy : ∀ k, k ≤ n.toNat → ∃ c, t.coefficient[k]? = some c ∧ denote SmartNum.exactReal env c = some (y k))
    (hrb : Readable b ∧ Unambiguous b)
    (hrt : ∀ u ∈ shownTerms t.coefficient, Readable u.2 ∧ Unambiguous u.2) (hne : shownTerms t.coefficient ≠ [])
    (r : Expr F) (hr : Readable r) (hu : Unambiguous r) (hp : r.display = .ok p) (hsp : s = p ++ " + O(" ++ q ++ ")") :
    denote SmartNum.exactReal env r = some (∑ k ∈ Finset.range (n.toNat + 1), y k * (env x - v) ^ k) := by
  obtain ⟨b', o', q', h1, h2, h3, -, h5⟩ := C79_text .strict m' m'' e a he ha x n t h s hs
  rw [hb] at h1; cases h1
  rw [ho] at h2; cases h2
  rw [hq] at h3; cases h3
  obtain ⟨u, us, hus⟩ := List.exists_cons_of_ne_nil hne
  obtain ⟨p', h6, h7⟩ := h5 u us hus
  have hpp : p = p' := by
    rw [hsp] at h7
    have h8 : p ++ (" + O(" ++ q ++ ")") = p' ++ (" + O(" ++ q ++ ")") := by simpa [String.append_assoc] using h7
    exact String.append_left_inj _ |>.1 h8
  subst hpp
  rw [← (C79_value m' m'' e a he ha x n t h hsa b hb env v w hv hw y hy).1 u us hus]
  have hidx : ∀ t' ∈ u :: us, t'.1 < 2 ^ 63 ∧ Readable t'.2 ∧ Unambiguous t'.2 := fun t' ht' => by
    rw [← hus] at ht'
    exact ⟨shownTerms_index h ht', hrt t' ht'⟩
  obtain ⟨k1, k2, k3⟩ := hidx u (by simp)
  obtain ⟨r1, r2⟩ := readable_polynomial hrb us (fun t ht => hidx t (by simp [ht])) _ (readable_monomial hrb k1 k2 k3)
  exact C47_value r (polynomial b u us) hr r1 hu r2 (hp.trans h6.symm) _ env

/-- C79: without that the text can mislead: the expansion of -(cos x / 2) at 0 prints as `-1/2 * x ^ 0 + 1/4 * x ^ 2 + O(x ^ 3)`,
which is also the text of the negation of `1/2 * x ^ 0 + 1/4 * x ^ 2` followed by the O-term, an expression whose value is
-1/2 - x²/4, not the Taylor polynomial -1/2 + x²/4. -/
theorem C79_leading_minus (m : Mode) : ∃ (t : PartialExpansion F) (r : Expr F),
    ((newVariable "x" : Expr F).cos.div (ofI64 2)).neg.taylorExpansion m ⟨"x"⟩ (ofI64 0) 2 = .ok t ∧
    t.display m = .ok ("-1/2 * x ^ 0 + 1/4 * x ^ 2" ++ " + O(x ^ 3)") ∧
    r.display = .ok "-1/2 * x ^ 0 + 1/4 * x ^ 2" ∧
    ∀ env : Env, denote SmartNum.exactReal env r = some (-(1 / 2) - 1 / 4 * env ⟨"x"⟩ ^ 2) := by
  have key : (match ((newVariable "x" : Expr F).cos.div (ofI64 2)).neg.taylorExpansion m ⟨"x"⟩ (ofI64 0) 2 with
      | .ok t => t.display m | _ => .panic) = .ok ("-1/2 * x ^ 0 + 1/4 * x ^ 2" ++ " + O(x ^ 3)") := by
    cases m <;> krfl
  split at key
  · rename_i t ht
    refine ⟨t, (((frac 1 1 2).mul ((newVariable "x").pow (ofI64 0))).add
      ((frac 1 1 4).mul ((newVariable "x").pow (ofI64 2)))).neg, ht, key, by krfl, fun env => ?_⟩
    have hx : denote SmartNum.exactReal env (newVariable "x" : Expr F) = some (env ⟨"x"⟩) := denote_ofVar _ _ _
    have hp : ∀ k : Nat, k < 2 ^ 63 → denote SmartNum.exactReal env ((newVariable "x" : Expr F).pow (ofI64 (Int64.ofNat k))) =
        some (env ⟨"x"⟩ ^ k) := fun k hk => by
      refine denote_pow.2 ⟨_, (k : ℝ), hx, ?_, powValue_nat _ k⟩
      rw [denote_int, show (Int64.ofNat k).toInt = (k : Int) from
        toInt_ofInt_of_inI64 (z := (k : Int)) (by unfold InI64; omega)]
      simp
    refine denote_neg.2 ⟨_, denote_add.2 ⟨_, _, denote_mul.2 ⟨_, _, denote_frac _ _ _ _ (by decide), hp 0 (by norm_num), rfl⟩,
      denote_mul.2 ⟨_, _, denote_frac _ _ _ _ (by decide), hp 2 (by norm_num), rfl⟩, rfl⟩, ?_⟩
    norm_num [show (1 : Int64).toInt = 1 by decide, show (1 : UInt64).toNat = 1 by decide,
      show (2 : UInt64).toNat = 2 by decide, show (4 : UInt64).toNat = 4 by decide]
    ring
  · cases key

/-- C79: an instance.  The expansion of exp x at 0 to order 3 prints as
`1 * x ^ 0 + 1 * x ^ 1 + 1/2 * x ^ 2 + 1/6 * x ^ 3 + O(x ^ 4)`, and whatever readable, unambiguous expression has the
text before the O-term has the value 1 + x + x²/2 + x³/6. -/
theorem C79_exp : ∃ t : PartialExpansion F,
    (newVariable "x" : Expr F).exp.taylorExpansion .strict ⟨"x"⟩ (ofI64 0) 3 = .ok t ∧
    t.display .strict = .ok ("1 * x ^ 0 + 1 * x ^ 1 + 1/2 * x ^ 2 + 1/6 * x ^ 3" ++ " + O(x ^ 4)") ∧
    ∀ r : Expr F, Readable r → Unambiguous r → r.display = .ok "1 * x ^ 0 + 1 * x ^ 1 + 1/2 * x ^ 2 + 1/6 * x ^ 3" →
      ∀ env : Env, denote SmartNum.exactReal env r =
        some (1 + env ⟨"x"⟩ + env ⟨"x"⟩ ^ 2 / 2 + env ⟨"x"⟩ ^ 3 / 6) := by
  have key : (match (newVariable "x" : Expr F).exp.taylorExpansion .strict ⟨"x"⟩ (ofI64 0) 3 with
      | .ok t => some (t.coefficient, t.display .strict) | _ => none) =
      some ([ofI64 1, ofI64 1, frac 1 1 2, frac 1 1 6],
        .ok ("1 * x ^ 0 + 1 * x ^ 1 + 1/2 * x ^ 2 + 1/6 * x ^ 3" ++ " + O(x ^ 4)")) := by krfl
  split at key
  · rename_i t ht
    obtain ⟨hc, hd⟩ := Prod.mk.inj (Option.some.inj key)
    refine ⟨t, ht, hd, fun r hr hu hp env => ?_⟩
    have hf : ∀ d : UInt64, d.toNat ≠ 0 → denote SmartNum.exactReal env (frac 1 1 d : Expr F) = some (1 / (d.toNat : ℝ)) :=
      fun d hd => by
        rw [denote_frac _ _ _ _ hd]
        norm_num [show (1 : Int64).toInt = 1 by decide, show (1 : UInt64).toNat = 1 by decide]
    have hone : denote SmartNum.exactReal env (ofI64 1 : Expr F) = some 1 := by
      rw [denote_int]; norm_num [show (1 : Int64).toInt = 1 by decide]
    have hsh : shownTerms t.coefficient = [(0, ofI64 1), (1, ofI64 1), (2, frac 1 1 2), (3, frac 1 1 6)] := by
      rw [hc]; krfl
    have hnum : ∀ n : SmartNum F, ReadableNum n → Readable (ofNum n) ∧ Unambiguous (ofNum n) := fun n hn =>
      ⟨.num n hn, .num n⟩
    have := C79_read (n := 3) .strict .strict (newVariable "x").exp (ofI64 0) (.exp _ (.var _)) (.num _ (.ofI64 0))
      ⟨"x"⟩ t ht (safe_ofNum _)
      (newVariable "x") (ofI64 4) (by krfl) (by krfl) _ _ "x ^ 4" hd (by krfl) env 0 (env ⟨"x"⟩)
      (by rw [denote_int]; norm_num [show (0 : Int64).toInt = 0 by decide]) (denote_ofVar _ _ _)
      (fun k => if k = 0 then 1 else if k = 1 then 1 else if k = 2 then 1 / 2 else 1 / 6)
      (fun k hk => by
        rw [hc]
        have : k ≤ 3 := hk
        interval_cases k
        · exact ⟨_, rfl, by rw [hone]; norm_num⟩
        · exact ⟨_, rfl, by rw [hone]; norm_num⟩
        · exact ⟨_, rfl, by rw [hf 2 (by decide)]; norm_num [show (2 : UInt64).toNat = 2 by decide]⟩
        · exact ⟨_, rfl, by rw [hf 6 (by decide)]; norm_num [show (6 : UInt64).toNat = 6 by decide]⟩)
      ⟨.var ⟨"x"⟩ ⟨by decide, by decide, by decide, by decide, by decide, by decide⟩, .var ⟨"x"⟩⟩ (by
        rw [hsh]; intro u hu
        simp only [List.mem_cons, List.not_mem_nil, or_false] at hu
        rcases hu with rfl | rfl | rfl | rfl
        · exact hnum _ (.inl ⟨1, by decide, rfl⟩)
        · exact hnum _ (.inl ⟨1, by decide, rfl⟩)
        · exact hnum _ (.inr (.inr (.inr ⟨1, 2, rfl⟩)))
        · exact hnum _ (.inr (.inr (.inr ⟨1, 6, rfl⟩)))) (by rw [hsh]; simp) r hr hu hp rfl
    rw [this, show (3 : UInt64).toNat + 1 = 4 from rfl]
    simp [Finset.sum_range_succ]
    ring
  · cases key

end SymRust
