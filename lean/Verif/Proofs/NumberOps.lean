import Verif.Proofs.Number
set_option linter.unusedSimpArgs false
/-! Exactness, refinement between modes and totality of number operations. -/

namespace SymRust
variable {F : Type}

namespace SmartNumVal
variable [FloatOps F]

theorem add_mono {m m' : Mode} (h : m.Le m') (a b : SmartNumVal F) : (add m a b).Le (add m' a b) := by
  unfold add
  cases a <;> cases b <;> try exact Res.Le.refl _
  · exact (i64Add_mono h _ _).bind fun _ => Res.Le.refl _
  · exact (RationalNum.ofI64_mono h _).bind fun _ => (RationalNum.add_mono h _ _).bind fun _ => Res.Le.refl _
  · exact (RationalNum.ofI64_mono h _).bind fun _ => (RationalNum.add_mono h _ _).bind fun _ => Res.Le.refl _
  · exact (RationalNum.add_mono h _ _).bind fun _ => Res.Le.refl _

theorem sub_mono {m m' : Mode} (h : m.Le m') (a b : SmartNumVal F) : (sub m a b).Le (sub m' a b) := by
  unfold sub
  cases a <;> cases b <;> try exact Res.Le.refl _
  · exact (i64Sub_mono h _ _).bind fun _ => Res.Le.refl _
  · exact (RationalNum.ofI64_mono h _).bind fun _ => (RationalNum.sub_mono h _ _).bind fun _ => Res.Le.refl _
  · exact (RationalNum.ofI64_mono h _).bind fun _ => (RationalNum.sub_mono h _ _).bind fun _ => Res.Le.refl _
  · exact (RationalNum.sub_mono h _ _).bind fun _ => Res.Le.refl _

theorem mul_mono {m m' : Mode} (h : m.Le m') (a b : SmartNumVal F) : (mul m a b).Le (mul m' a b) := by
  unfold mul
  split
  · exact Res.Le.refl _
  cases a <;> cases b <;> try exact Res.Le.refl _
  · exact (i64Mul_mono h _ _).bind fun _ => Res.Le.refl _
  · exact (RationalNum.ofI64_mono h _).bind fun _ => (RationalNum.mul_mono h _ _).bind fun _ => Res.Le.refl _
  · exact (RationalNum.ofI64_mono h _).bind fun _ => (RationalNum.mul_mono h _ _).bind fun _ => Res.Le.refl _
  · exact (RationalNum.mul_mono h _ _).bind fun _ => Res.Le.refl _

theorem div_mono {m m' : Mode} (h : m.Le m') (a b : SmartNumVal F) : (div m a b).Le (div m' a b) := by
  unfold div
  split
  · exact Res.Le.refl _
  cases a <;> cases b <;> try exact Res.Le.refl _
  · exact (RationalNum.ofI64_mono h _).bind fun _ => (RationalNum.ofI64_mono h _).bind fun _ =>
      (RationalNum.div_mono h _ _).bind fun _ => Res.Le.refl _
  · exact (RationalNum.ofI64_mono h _).bind fun _ => (RationalNum.div_mono h _ _).bind fun _ => Res.Le.refl _
  · exact (RationalNum.ofI64_mono h _).bind fun _ => (RationalNum.div_mono h _ _).bind fun _ => Res.Le.refl _
  · exact (RationalNum.div_mono h _ _).bind fun _ => Res.Le.refl _

theorem neg_mono {m m' : Mode} (h : m.Le m') (a : SmartNumVal F) : (neg m a).Le (neg m' a) := by
  unfold neg
  cases a <;> try exact Res.Le.refl _
  · exact (i64Neg_mono h _).bind fun _ => Res.Le.refl _
  · exact (RationalNum.neg_mono h _).bind fun _ => Res.Le.refl _

end SmartNumVal

namespace SmartNum
variable [FloatOps F]

omit [FloatOps F] in
theorem ofU64_mono {m m' : Mode} (h : m.Le m') (v : UInt64) :
    (ofU64 (F := F) m v).Le (ofU64 m' v) :=
  ((castI64_mono h _).bind fun _ => Res.Le.refl _).bind fun _ => Res.Le.refl _

omit [FloatOps F] in
theorem newRational_mono {m m' : Mode} (h : m.Le m') (s : Int64) (n d : UInt64) :
    (newRational (F := F) m s n d).Le (newRational m' s n d) :=
  ((RationalNum.new_mono h _ _ _).bind fun _ => Res.Le.refl _).bind fun _ => Res.Le.refl _

omit [FloatOps F] in
theorem toRational_mono {m m' : Mode} (h : m.Le m') (x : SmartNum F) :
    (x.toRational m).Le (x.toRational m') := by
  unfold toRational
  split
  · exact (RationalNum.ofI64_mono h _).bind fun _ => Res.Le.refl _
  · exact Res.Le.refl _
  · exact Res.Le.refl _

theorem neg_mono {m m' : Mode} (h : m.Le m') (x : SmartNum F) : (x.neg m).Le (x.neg m') :=
  (SmartNumVal.neg_mono h _).bind fun _ => Res.Le.refl _

theorem add_mono {m m' : Mode} (h : m.Le m') (x y : SmartNum F) : (x.add m y).Le (x.add m' y) := by
  unfold add
  split
  · exact Res.Le.refl _
  split
  · exact Res.Le.refl _
  exact (SmartNumVal.add_mono h _ _).bind fun _ => Res.Le.refl _

theorem sub_mono {m m' : Mode} (h : m.Le m') (x y : SmartNum F) : (x.sub m y).Le (x.sub m' y) := by
  unfold sub
  split
  · exact neg_mono h y
  split
  · exact Res.Le.refl _
  exact (SmartNumVal.sub_mono h _ _).bind fun _ => Res.Le.refl _

theorem mul_mono {m m' : Mode} (h : m.Le m') (x y : SmartNum F) : (x.mul m y).Le (x.mul m' y) := by
  unfold mul
  split
  · exact Res.Le.refl _
  split
  · exact Res.Le.refl _
  exact (SmartNumVal.mul_mono h _ _).bind fun _ => Res.Le.refl _

theorem div_mono {m m' : Mode} (h : m.Le m') (x y : SmartNum F) : (x.div m y).Le (x.div m' y) :=
  (SmartNumVal.div_mono h _ _).bind fun _ => Res.Le.refl _

/-! ### release totality -/

end SmartNum

open RationalNum in
theorem RationalNum.release_total (a b : RationalNum) (v : Int64) :
    (∃ c, a.add .release b = .ok c) ∧ (∃ c, a.sub .release b = .ok c) ∧
    (∃ c, a.mul .release b = .ok c) ∧ (∃ c, a.div .release b = .ok c) ∧
    (∃ c, a.neg .release = .ok c) ∧ (∃ c, RationalNum.ofI64 .release v = .ok c) := by
  refine ⟨?_, ?_, ?_, ?_, ?_, ?_⟩
  · unfold add
    simp [i64Add_release, i64Mul_release, u64Mul_release, castI64_release, i64Abs_release]
  · unfold sub
    simp [i64Sub_release, i64Mul_release, u64Mul_release, castI64_release, i64Abs_release]
  · unfold mul
    simp [i64Mul_release, u64Mul_release]
  · unfold div
    simp [i64Mul_release, u64Mul_release]
  · unfold neg
    simp [i64Neg_release]
  · unfold ofI64
    simp [i64Abs_release]

theorem SmartNumVal.release_total [FloatOps F] (a b : SmartNumVal F) :
    (∃ c, a.add .release b = .ok c) ∧ (∃ c, a.sub .release b = .ok c) ∧
    (∃ c, a.mul .release b = .ok c) ∧ (∃ c, a.div .release b = .ok c) ∧
    (∃ c, a.neg .release = .ok c) := by
  have hof : ∀ v, ∃ c, RationalNum.ofI64 .release v = .ok c :=
    fun v => (RationalNum.release_total ⟨0, 0, 0⟩ ⟨0, 0, 0⟩ v).2.2.2.2.2
  have hr := fun a b => RationalNum.release_total a b 0
  refine ⟨?_, ?_, ?_, ?_, ?_⟩
  · unfold add
    cases a with
    | integer i => cases b with
      | integer j => simp [RationalNum.i64Add_release]
      | rational j =>
        obtain ⟨x, hx⟩ := hof i; obtain ⟨y, hy⟩ := (hr x j).1; simp [hx, hy]
      | real j => simp
    | rational i => cases b with
      | integer j => obtain ⟨x, hx⟩ := hof j; obtain ⟨y, hy⟩ := (hr i x).1; simp [hx, hy]
      | rational j => obtain ⟨y, hy⟩ := (hr i j).1; simp [hy]
      | real j => simp
    | real i => cases b <;> simp
  · unfold sub
    cases a with
    | integer i => cases b with
      | integer j => simp [RationalNum.i64Sub_release]
      | rational j =>
        obtain ⟨x, hx⟩ := hof i; obtain ⟨y, hy⟩ := (hr x j).2.1; simp [hx, hy]
      | real j => simp
    | rational i => cases b with
      | integer j => obtain ⟨x, hx⟩ := hof j; obtain ⟨y, hy⟩ := (hr i x).2.1; simp [hx, hy]
      | rational j => obtain ⟨y, hy⟩ := (hr i j).2.1; simp [hy]
      | real j => simp
    | real i => cases b <;> simp
  · unfold mul
    split
    · simp
    cases a with
    | integer i => cases b with
      | integer j => simp [RationalNum.i64Mul_release]
      | rational j =>
        obtain ⟨x, hx⟩ := hof i; obtain ⟨y, hy⟩ := (hr x j).2.2.1; simp [hx, hy]
      | real j => simp
    | rational i => cases b with
      | integer j => obtain ⟨x, hx⟩ := hof j; obtain ⟨y, hy⟩ := (hr i x).2.2.1; simp [hx, hy]
      | rational j => obtain ⟨y, hy⟩ := (hr i j).2.2.1; simp [hy]
      | real j => simp
    | real i => cases b <;> simp
  · unfold div
    split
    · simp
    cases a with
    | integer i => cases b with
      | integer j =>
        obtain ⟨x, hx⟩ := hof i; obtain ⟨x', hx'⟩ := hof j
        obtain ⟨y, hy⟩ := (hr x x').2.2.2.1; simp [hx, hx', hy]
      | rational j =>
        obtain ⟨x, hx⟩ := hof i; obtain ⟨y, hy⟩ := (hr x j).2.2.2.1; simp [hx, hy]
      | real j => simp
    | rational i => cases b with
      | integer j => obtain ⟨x, hx⟩ := hof j; obtain ⟨y, hy⟩ := (hr i x).2.2.2.1; simp [hx, hy]
      | rational j => obtain ⟨y, hy⟩ := (hr i j).2.2.2.1; simp [hy]
      | real j => simp
    | real i => cases b <;> simp
  · unfold neg
    cases a with
    | integer i => simp [RationalNum.i64Neg_release]
    | rational i => obtain ⟨y, hy⟩ := (hr i i).2.2.2.2.1; simp [hy]
    | real i => simp

theorem SmartNum.release_total [FloatOps F] (a b : SmartNum F) :
    (∃ c, a.add .release b = .ok c) ∧ (∃ c, a.sub .release b = .ok c) ∧
    (∃ c, a.mul .release b = .ok c) ∧ (∃ c, a.div .release b = .ok c) ∧
    (∃ c, a.neg .release = .ok c) := by
  have hn : ∀ a : SmartNum F, ∃ c, a.neg .release = .ok c := by
    intro a
    obtain ⟨v, hv⟩ := (SmartNumVal.release_total a.value a.value).2.2.2.2
    unfold neg; simp [hv]
  obtain ⟨⟨v1, h1⟩, ⟨v2, h2⟩, ⟨v3, h3⟩, ⟨v4, h4⟩, -⟩ := SmartNumVal.release_total a.value b.value
  refine ⟨?_, ?_, ?_, ?_, hn a⟩
  · unfold add; split
    · simp
    · split <;> simp [h1]
  · unfold sub; split
    · exact hn b
    · split <;> simp [h2]
  · unfold mul; split
    · simp
    · split <;> simp [h3]
  · unfold div; simp [h4]

/-! ### exactness -/

namespace SmartNumVal

theorem exact_rational {r : RationalNum} {q : ℚ}
    (h : (SmartNumVal.rational r : SmartNumVal F).exact? = some q) :
    r.denominator ≠ 0 ∧ r.value = q := by
  simpa [exact?] using h

theorem exact_of {r : RationalNum} (h : r.denominator ≠ 0) :
    (SmartNumVal.rational r : SmartNumVal F).exact? = some r.value := by
  simp [exact?, h]

variable [FloatOps F]

theorem add_exact {a b c : SmartNumVal F} {p q : ℚ}
    (ha : a.exact? = some p) (hb : b.exact? = some q)
    (h : add .strict a b = .ok c) : c.exact? = some (p + q) := by
  have hm : Mode.strict ≠ .release := by simp
  cases a with
  | real _ => cases ha
  | integer i =>
    have hp : (i.toInt : ℚ) = p := by simpa [exact?] using ha
    cases b with
    | real _ => cases hb
    | integer j =>
      have hq : (j.toInt : ℚ) = q := by simpa [exact?] using hb
      simp only [add, Res.bind_eq_ok, Res.pure_eq, Res.ok.injEq] at h
      obtain ⟨s, hs, rfl⟩ := h
      simp only [exact?]
      rw [i64Add_exact hm hs, ← hp, ← hq]; push_cast; rfl
    | rational r =>
      obtain ⟨hd, hq⟩ := exact_rational hb
      simp only [add, Res.bind_eq_ok, Res.pure_eq, Res.ok.injEq] at h
      obtain ⟨x, hx, s, hs, rfl⟩ := h
      have e1 := RationalNum.ofI64_exact hm hx
      have e2 := RationalNum.add_exact hm (.inl rfl) e1.2.1.2 hd hs
      rw [exact_of e2.2.2.1, e2.1, e1.1, hp, hq]
  | rational r =>
    obtain ⟨hd, hp⟩ := exact_rational ha
    cases b with
    | real _ => cases hb
    | integer j =>
      have hq : (j.toInt : ℚ) = q := by simpa [exact?] using hb
      simp only [add, Res.bind_eq_ok, Res.pure_eq, Res.ok.injEq] at h
      obtain ⟨x, hx, s, hs, rfl⟩ := h
      have e1 := RationalNum.ofI64_exact hm hx
      have e2 := RationalNum.add_exact hm (.inl rfl) hd e1.2.1.2 hs
      rw [exact_of e2.2.2.1, e2.1, e1.1, hp, hq]
    | rational r' =>
      obtain ⟨hd', hq⟩ := exact_rational hb
      simp only [add, Res.bind_eq_ok, Res.pure_eq, Res.ok.injEq] at h
      obtain ⟨s, hs, rfl⟩ := h
      have e2 := RationalNum.add_exact hm (.inl rfl) hd hd' hs
      rw [exact_of e2.2.2.1, e2.1, hp, hq]

theorem sub_exact {a b c : SmartNumVal F} {p q : ℚ}
    (ha : a.exact? = some p) (hb : b.exact? = some q)
    (h : sub .strict a b = .ok c) : c.exact? = some (p - q) := by
  have hm : Mode.strict ≠ .release := by simp
  cases a with
  | real _ => cases ha
  | integer i =>
    have hp : (i.toInt : ℚ) = p := by simpa [exact?] using ha
    cases b with
    | real _ => cases hb
    | integer j =>
      have hq : (j.toInt : ℚ) = q := by simpa [exact?] using hb
      simp only [sub, Res.bind_eq_ok, Res.pure_eq, Res.ok.injEq] at h
      obtain ⟨s, hs, rfl⟩ := h
      simp only [exact?]
      rw [i64Sub_exact hm hs, ← hp, ← hq]; push_cast; rfl
    | rational r =>
      obtain ⟨hd, hq⟩ := exact_rational hb
      simp only [sub, Res.bind_eq_ok, Res.pure_eq, Res.ok.injEq] at h
      obtain ⟨x, hx, s, hs, rfl⟩ := h
      have e1 := RationalNum.ofI64_exact hm hx
      have e2 := RationalNum.sub_exact hm (.inl rfl) e1.2.1.2 hd hs
      rw [exact_of e2.2.2.1, e2.1, e1.1, hp, hq]
  | rational r =>
    obtain ⟨hd, hp⟩ := exact_rational ha
    cases b with
    | real _ => cases hb
    | integer j =>
      have hq : (j.toInt : ℚ) = q := by simpa [exact?] using hb
      simp only [sub, Res.bind_eq_ok, Res.pure_eq, Res.ok.injEq] at h
      obtain ⟨x, hx, s, hs, rfl⟩ := h
      have e1 := RationalNum.ofI64_exact hm hx
      have e2 := RationalNum.sub_exact hm (.inl rfl) hd e1.2.1.2 hs
      rw [exact_of e2.2.2.1, e2.1, e1.1, hp, hq]
    | rational r' =>
      obtain ⟨hd', hq⟩ := exact_rational hb
      simp only [sub, Res.bind_eq_ok, Res.pure_eq, Res.ok.injEq] at h
      obtain ⟨s, hs, rfl⟩ := h
      have e2 := RationalNum.sub_exact hm (.inl rfl) hd hd' hs
      rw [exact_of e2.2.2.1, e2.1, hp, hq]

theorem mul_exact {m : Mode} (hm : m ≠ .release) {a b c : SmartNumVal F} {p q : ℚ}
    (hoa : a.OK) (hob : b.OK) (ha : a.exact? = some p) (hb : b.exact? = some q)
    (h : mul m a b = .ok c) : c.exact? = some (p * q) := by
  unfold mul at h
  split at h
  · rename_i hz
    cases h
    simp only [exact?]
    rw [Bool.or_eq_true, isZero_iff hoa, isZero_iff hob, ha, hb] at hz
    simp only [Option.some.injEq] at hz
    rcases hz with hz | hz <;> simp [hz]
  cases a with
  | real _ => cases ha
  | integer i =>
    have hp : (i.toInt : ℚ) = p := by simpa [exact?] using ha
    cases b with
    | real _ => cases hb
    | integer j =>
      have hq : (j.toInt : ℚ) = q := by simpa [exact?] using hb
      simp only [Res.bind_eq_ok, Res.pure_eq, Res.ok.injEq] at h
      obtain ⟨s, hs, rfl⟩ := h
      simp only [exact?]
      rw [i64Mul_exact hm hs, ← hp, ← hq]; push_cast; rfl
    | rational r =>
      obtain ⟨hd, hq⟩ := exact_rational hb
      simp only [Res.bind_eq_ok, Res.pure_eq, Res.ok.injEq] at h
      obtain ⟨x, hx, s, hs, rfl⟩ := h
      have e1 := RationalNum.ofI64_exact hm hx
      have e2 := RationalNum.mul_exact hm e1.2.1.2 hd hs
      rw [exact_of e2.2.2.1, e2.1, e1.1, hp, hq]
  | rational r =>
    obtain ⟨hd, hp⟩ := exact_rational ha
    cases b with
    | real _ => cases hb
    | integer j =>
      have hq : (j.toInt : ℚ) = q := by simpa [exact?] using hb
      simp only [Res.bind_eq_ok, Res.pure_eq, Res.ok.injEq] at h
      obtain ⟨x, hx, s, hs, rfl⟩ := h
      have e1 := RationalNum.ofI64_exact hm hx
      have e2 := RationalNum.mul_exact hm hd e1.2.1.2 hs
      rw [exact_of e2.2.2.1, e2.1, e1.1, hp, hq]
    | rational r' =>
      obtain ⟨hd', hq⟩ := exact_rational hb
      simp only [Res.bind_eq_ok, Res.pure_eq, Res.ok.injEq] at h
      obtain ⟨s, hs, rfl⟩ := h
      have e2 := RationalNum.mul_exact hm hd hd' hs
      rw [exact_of e2.2.2.1, e2.1, hp, hq]

theorem nominator_ne {r : RationalNum} {q : ℚ} (hv : r.Valid) (hq : r.value = q) (h0 : q ≠ 0) :
    r.nominator ≠ 0 := fun h => h0 (by rw [← hq]; exact (RationalNum.value_eq_zero hv).mpr h)

theorem div_exact {m : Mode} (hm : m ≠ .release) {a b c : SmartNumVal F} {p q : ℚ}
    (hoa : a.OK) (hob : b.OK) (ha : a.exact? = some p) (hb : b.exact? = some q) (h0 : q ≠ 0)
    (h : div m a b = .ok c) : c.exact? = some (p / q) := by
  unfold div at h
  split at h
  · rename_i hz
    cases h
    simp only [exact?]
    rw [isZero_iff hoa, ha] at hz
    simp only [Option.some.injEq] at hz
    simp [hz]
  cases a with
  | real _ => cases ha
  | integer i =>
    have hp : (i.toInt : ℚ) = p := by simpa [exact?] using ha
    cases b with
    | real _ => cases hb
    | integer j =>
      have hq : (j.toInt : ℚ) = q := by simpa [exact?] using hb
      simp only [Res.bind_eq_ok, Res.pure_eq, Res.ok.injEq] at h
      obtain ⟨x, hx, y, hy, s, hs, rfl⟩ := h
      have e1 := RationalNum.ofI64_exact hm hx
      have e1' := RationalNum.ofI64_exact hm hy
      have e2 := RationalNum.div_exact hm e1.2.1.2 e1'.2.1
        (nominator_ne e1'.2.1 (e1'.1.trans hq) h0) hs
      rw [exact_of e2.2.2.1, e2.1, e1.1, e1'.1, hp, hq]
    | rational r =>
      obtain ⟨hd, hq⟩ := exact_rational hb
      have hv := (hob _ rfl).valid hd
      simp only [Res.bind_eq_ok, Res.pure_eq, Res.ok.injEq] at h
      obtain ⟨x, hx, s, hs, rfl⟩ := h
      have e1 := RationalNum.ofI64_exact hm hx
      have e2 := RationalNum.div_exact hm e1.2.1.2 hv (nominator_ne hv hq h0) hs
      rw [exact_of e2.2.2.1, e2.1, e1.1, hp, hq]
  | rational r =>
    obtain ⟨hd, hp⟩ := exact_rational ha
    cases b with
    | real _ => cases hb
    | integer j =>
      have hq : (j.toInt : ℚ) = q := by simpa [exact?] using hb
      simp only [Res.bind_eq_ok, Res.pure_eq, Res.ok.injEq] at h
      obtain ⟨x, hx, s, hs, rfl⟩ := h
      have e1 := RationalNum.ofI64_exact hm hx
      have e2 := RationalNum.div_exact hm hd e1.2.1 (nominator_ne e1.2.1 (e1.1.trans hq) h0) hs
      rw [exact_of e2.2.2.1, e2.1, e1.1, hp, hq]
    | rational r' =>
      obtain ⟨hd', hq⟩ := exact_rational hb
      have hv := (hob _ rfl).valid hd'
      simp only [Res.bind_eq_ok, Res.pure_eq, Res.ok.injEq] at h
      obtain ⟨s, hs, rfl⟩ := h
      have e2 := RationalNum.div_exact hm hd hv (nominator_ne hv hq h0) hs
      rw [exact_of e2.2.2.1, e2.1, hp, hq]

theorem neg_exact {m : Mode} (hm : m ≠ .release) {a c : SmartNumVal F} {p : ℚ}
    (ha : a.exact? = some p) (h : neg m a = .ok c) : c.exact? = some (-p) := by
  cases a with
  | real _ => cases ha
  | integer i =>
    have hp : (i.toInt : ℚ) = p := by simpa [exact?] using ha
    simp only [neg, Res.bind_eq_ok, Res.pure_eq, Res.ok.injEq] at h
    obtain ⟨s, hs, rfl⟩ := h
    simp only [exact?]
    rw [i64Neg_exact hm hs, ← hp]; push_cast; rfl
  | rational r =>
    obtain ⟨hd, hp⟩ := exact_rational ha
    simp only [neg, Res.bind_eq_ok, Res.pure_eq, Res.ok.injEq] at h
    obtain ⟨s, hs, rfl⟩ := h
    have e := RationalNum.neg_exact hm hs
    rw [exact_of (by rw [e.2.2.1]; exact hd), e.1, hp]

/-! no floats out of non-floats -/

def isF : SmartNumVal F → Prop
  | .real _ => True
  | _ => False

theorem add_nonfloat {m : Mode} {a b c : SmartNumVal F} (ha : ¬ a.isF) (hb : ¬ b.isF)
    (h : add m a b = .ok c) : ¬ c.isF := by
  unfold add at h
  cases a <;> cases b <;> simp [isF] at ha hb <;>
    simp only [Res.bind_eq_ok, Res.pure_eq, Res.ok.injEq] at h
  · obtain ⟨_, _, rfl⟩ := h; simp [isF]
  · obtain ⟨_, _, _, _, rfl⟩ := h; simp [isF]
  · obtain ⟨_, _, _, _, rfl⟩ := h; simp [isF]
  · obtain ⟨_, _, rfl⟩ := h; simp [isF]

theorem sub_nonfloat {m : Mode} {a b c : SmartNumVal F} (ha : ¬ a.isF) (hb : ¬ b.isF)
    (h : sub m a b = .ok c) : ¬ c.isF := by
  unfold sub at h
  cases a <;> cases b <;> simp [isF] at ha hb <;>
    simp only [Res.bind_eq_ok, Res.pure_eq, Res.ok.injEq] at h
  · obtain ⟨_, _, rfl⟩ := h; simp [isF]
  · obtain ⟨_, _, _, _, rfl⟩ := h; simp [isF]
  · obtain ⟨_, _, _, _, rfl⟩ := h; simp [isF]
  · obtain ⟨_, _, rfl⟩ := h; simp [isF]

theorem mul_nonfloat {m : Mode} {a b c : SmartNumVal F} (ha : ¬ a.isF) (hb : ¬ b.isF)
    (h : mul m a b = .ok c) : ¬ c.isF := by
  unfold mul at h
  split at h
  · cases h; simp [isF]
  cases a <;> cases b <;> simp [isF] at ha hb <;>
    simp only [Res.bind_eq_ok, Res.pure_eq, Res.ok.injEq] at h
  · obtain ⟨_, _, rfl⟩ := h; simp [isF]
  · obtain ⟨_, _, _, _, rfl⟩ := h; simp [isF]
  · obtain ⟨_, _, _, _, rfl⟩ := h; simp [isF]
  · obtain ⟨_, _, rfl⟩ := h; simp [isF]

theorem div_nonfloat {m : Mode} {a b c : SmartNumVal F} (ha : ¬ a.isF) (hb : ¬ b.isF)
    (h : div m a b = .ok c) : ¬ c.isF := by
  unfold div at h
  split at h
  · cases h; simp [isF]
  cases a <;> cases b <;> simp [isF] at ha hb <;>
    simp only [Res.bind_eq_ok, Res.pure_eq, Res.ok.injEq] at h
  · obtain ⟨_, _, _, _, _, _, rfl⟩ := h; simp [isF]
  · obtain ⟨_, _, _, _, rfl⟩ := h; simp [isF]
  · obtain ⟨_, _, _, _, rfl⟩ := h; simp [isF]
  · obtain ⟨_, _, rfl⟩ := h; simp [isF]

theorem neg_nonfloat {m : Mode} {a c : SmartNumVal F} (ha : ¬ a.isF)
    (h : neg m a = .ok c) : ¬ c.isF := by
  unfold neg at h
  cases a <;> simp [isF] at ha <;>
    simp only [Res.bind_eq_ok, Res.pure_eq, Res.ok.injEq] at h
  · obtain ⟨_, _, rfl⟩ := h; simp [isF]
  · obtain ⟨_, _, rfl⟩ := h; simp [isF]

end SmartNumVal

namespace SmartNum

theorem nonFloat_iff (x : SmartNum F) : x.NonFloat ↔ ¬ x.value.isF := by
  unfold NonFloat
  cases hx : x.value <;> simp [SmartNumVal.isF]

theorem exact_zero : (zero : SmartNum F).exact? = some 0 := by simp [exact?, zero, SmartNumVal.exact?]
theorem exact_one : (one : SmartNum F).exact? = some 1 := by simp [exact?, one, SmartNumVal.exact?]

/-- `wrapVal` keeps the exact value. -/
theorem exact_wrapVal {v : SmartNumVal F} (hv : v.PreOK) {q : ℚ} (h : v.exact? = some q) :
    (wrapVal v).exact? = some q := by
  unfold wrapVal
  split
  · rename_i h0
    cases v with
    | integer i =>
      simp only [SmartNumVal.isZero, beq_iff_eq] at h0
      subst h0; rw [exact_zero]; rw [← h]; simp [SmartNumVal.exact?]
    | real f => cases h
    | rational r =>
      simp only [SmartNumVal.isZero, Bool.and_eq_true, beq_iff_eq, bne_iff_ne] at h0
      obtain ⟨_, h2⟩ := SmartNumVal.exact_rational h
      rw [exact_zero, ← h2]
      unfold RationalNum.value; simp [h0.1]
  · rename_i h0
    have hok := hv.ok_of_not_zero (by simpa using h0)
    split
    · rename_i h1
      rw [SmartNumVal.isOne_iff hok] at h1
      rw [exact_one, ← h1, h]
    · exact h

theorem nonFloat_wrapVal {v : SmartNumVal F} (h : ¬ v.isF) : (wrapVal v).NonFloat := by
  rw [nonFloat_iff]
  unfold wrapVal
  split
  · simp [zero, SmartNumVal.isF]
  · split
    · simp [one, SmartNumVal.isF]
    · exact h

variable [FloatOps F]

theorem add_exact {x y z : SmartNum F} (hx : x.Valid) (hy : y.Valid) {p q : ℚ}
    (hp : x.exact? = some p) (hq : y.exact? = some q) (h : x.add .strict y = .ok z) :
    z.exact? = some (p + q) := by
  unfold add at h
  split at h
  · rename_i h0
    rw [hx.zero_iff, hp] at h0; cases h0; cases h; rw [hq]; simp
  split at h
  · rename_i h0
    rw [hy.zero_iff, hq] at h0; cases h0; cases h; rw [hp]; simp
  simp only [Res.bind_eq_ok, Res.pure_eq, Res.ok.injEq] at h
  obtain ⟨v, hv, rfl⟩ := h
  exact exact_wrapVal (SmartNumVal.add_preOK hv) (SmartNumVal.add_exact hp hq hv)

theorem neg_exact {m : Mode} (hm : m ≠ .release) {x z : SmartNum F} (hx : x.Valid) {p : ℚ}
    (hp : x.exact? = some p) (h : x.neg m = .ok z) : z.exact? = some (-p) := by
  unfold neg at h
  simp only [Res.bind_eq_ok, Res.pure_eq, Res.ok.injEq] at h
  obtain ⟨v, hv, rfl⟩ := h
  exact exact_wrapVal (SmartNumVal.neg_ok hx.ok hv).pre (SmartNumVal.neg_exact hm hp hv)

theorem sub_exact {x y z : SmartNum F} (hx : x.Valid) (hy : y.Valid) {p q : ℚ}
    (hp : x.exact? = some p) (hq : y.exact? = some q) (h : x.sub .strict y = .ok z) :
    z.exact? = some (p - q) := by
  unfold sub at h
  split at h
  · rename_i h0
    rw [hx.zero_iff, hp] at h0; cases h0
    rw [neg_exact (by simp) hy hq h]; simp
  split at h
  · rename_i h0
    rw [hy.zero_iff, hq] at h0; cases h0; cases h; rw [hp]; simp
  simp only [Res.bind_eq_ok, Res.pure_eq, Res.ok.injEq] at h
  obtain ⟨v, hv, rfl⟩ := h
  exact exact_wrapVal (SmartNumVal.sub_preOK hv) (SmartNumVal.sub_exact hp hq hv)

theorem mul_exact {m : Mode} (hm : m ≠ .release) {x y z : SmartNum F} (hx : x.Valid) (hy : y.Valid)
    {p q : ℚ} (hp : x.exact? = some p) (hq : y.exact? = some q) (h : x.mul m y = .ok z) :
    z.exact? = some (p * q) := by
  unfold mul at h
  split at h
  · rename_i h0
    rw [hx.one_iff, hp] at h0; cases h0; cases h; rw [hq]; simp
  split at h
  · rename_i h0
    rw [hy.one_iff, hq] at h0; cases h0; cases h; rw [hp]; simp
  simp only [Res.bind_eq_ok, Res.pure_eq, Res.ok.injEq] at h
  obtain ⟨v, hv, rfl⟩ := h
  exact exact_wrapVal (SmartNumVal.mul_preOK hx.ok hy.ok hv)
    (SmartNumVal.mul_exact hm hx.ok hy.ok hp hq hv)

theorem div_exact {m : Mode} (hm : m ≠ .release) {x y z : SmartNum F} (hx : x.Valid) (hy : y.Valid)
    {p q : ℚ} (hp : x.exact? = some p) (hq : y.exact? = some q) (h0 : q ≠ 0)
    (h : x.div m y = .ok z) : z.exact? = some (p / q) := by
  unfold div at h
  simp only [Res.bind_eq_ok, Res.pure_eq, Res.ok.injEq] at h
  obtain ⟨v, hv, rfl⟩ := h
  exact exact_wrapVal (SmartNumVal.div_preOK hx.ok hy.ok hv)
    (SmartNumVal.div_exact hm hx.ok hy.ok hp hq h0 hv)

end SmartNum
end SymRust
