import Verif.Props.Residual
import Verif.Props.DifferenceQuotient
/-! # The first non-zero coefficient of an expansion decides: property C95 -/

namespace SymRust
variable {F : Type} [FloatOps F]
open Expr Set Filter Topology Asymptotics

section
variable (m m' : Mode) (e v : Expr F) (he : Built m e) (hv : Built m' v) (x : Variable) (n : UInt64)
  (t : PartialExpansion F) (h : e.taylorExpansion .strict x v n = .ok t)
  (hsv : Safe SmartNum.exactReal Set.univ v) (hs : SafeD SmartNum.exactReal (AtPoint SmartNum.exactReal x v) e)
  (hl : NoLnIntoBase x v e) (env : Env) (p r : ℝ) (hpt : denote SmartNum.exactReal env v = some p)
  (hr : denote SmartNum.exactReal (env.set x p) e = some r) (hp : PowOK SmartNum.exactReal (env.set x p) x e)
  (y : Nat → ℝ) (hy : ∀ k, k ≤ n.toNat → ∃ c, t.coefficient[k]? = some c ∧ denote SmartNum.exactReal env c = some (y k))
  (k : Nat) (hk : k ≤ n.toNat) (h0 : ∀ i, 1 ≤ i → i < k → y i = 0) (h1 : 1 ≤ k)

include he hv h hsv hs hl hpt hr hp hy hk h0 h1

/-- **C95** (leading term). If the coefficients of order 1 to k - 1 are 0, the value of `e` minus its value at the point is
asymptotically coefficient k times (s - p)^k. -/
theorem C95_leading : Tendsto (fun s => (fn SmartNum.exactReal env x e s - r) / (s - p) ^ k) (𝓝[≠] p) (𝓝 (y k)) := by
  have hR := C35_remainder m m' e v he hv x n t h hsv hs hl env p r hpt hr hp y hy
  have hy0 : y 0 = r := by
    obtain ⟨c, g1, g2⟩ := hy 0 (Nat.zero_le _)
    obtain ⟨c', g3, g4⟩ := C34_coefficients m m' e v he hv x n t h hsv hs hl env p r hpt hr hp 0 (Nat.zero_le _)
    rw [g1] at g3
    cases g3
    rw [g4.1 _ g2, iteratedDeriv_zero, fn, hr]
    simp
  -- the remainder is negligible
  have hpow : (fun s : ℝ => (s - p) ^ (n.toNat + 1)) =o[𝓝 p] fun s => (s - p) ^ k := by
    have := (isLittleO_pow_pow (𝕜 := ℝ) (show k < n.toNat + 1 by omega)).comp_tendsto
      (show Tendsto (fun s : ℝ => s - p) (𝓝 p) (𝓝 0) by simpa using (tendsto_id (α := ℝ) (x := 𝓝 p)).sub_const p)
    exact this
  have hrem := ((hR.trans_isLittleO hpow).tendsto_div_nhds_zero).mono_left (nhdsWithin_le_nhds (s := {p}ᶜ))
  -- the other terms
  have hQ : Tendsto (fun s : ℝ => ∑ i ∈ Finset.range (n.toNat + 1 - k), y (k + i) * (s - p) ^ i) (𝓝[≠] p) (𝓝 (y k)) := by
    have hc : Continuous fun s : ℝ => ∑ i ∈ Finset.range (n.toNat + 1 - k), y (k + i) * (s - p) ^ i := by fun_prop
    have h2 := (hc.tendsto p).mono_left (nhdsWithin_le_nhds (s := {p}ᶜ))
    have h3 : ∑ i ∈ Finset.range (n.toNat + 1 - k), y (k + i) * (p - p) ^ i = y k := by
      rw [Finset.sum_eq_single_of_mem 0 (by simp; omega) fun i _ hi => by simp [hi]]
      simp
    rwa [h3] at h2
  have hsum : ∀ s : ℝ, ∑ i ∈ Finset.range (n.toNat + 1), y i * (s - p) ^ i =
      r + (s - p) ^ k * ∑ i ∈ Finset.range (n.toNat + 1 - k), y (k + i) * (s - p) ^ i := by
    intro s
    rw [show n.toNat + 1 = k + (n.toNat + 1 - k) by omega, Finset.sum_range_add, show k + (n.toNat + 1 - k) - k = n.toNat + 1 - k by omega,
      Finset.mul_sum]
    congr 1
    · rw [Finset.sum_eq_single_of_mem 0 (by simp; omega) fun i hi h' => by
        rw [h0 i (by omega) (by simpa using hi), zero_mul]]
      simp [hy0]
    · exact Finset.sum_congr rfl fun i _ => by rw [pow_add]; ring
  have := hrem.add hQ
  rw [zero_add] at this
  refine this.congr' ?_
  filter_upwards [self_mem_nhdsWithin] with s hsp
  have hne : (s - p) ^ k ≠ 0 := pow_ne_zero _ (sub_ne_zero.2 hsp)
  rw [hsum, eq_div_iff hne, add_mul, div_mul_cancel₀ _ hne]
  ring

/-- **C95** (extrema and sign changes). If coefficient k is the first after the constant term that is not 0: for even k the
point is a strict local minimum if it is positive, a strict local maximum if it is negative; for odd k the expression crosses
its value at the point, upwards if it is positive, downwards if it is negative. -/
theorem C95_extremum :
    (Even k → 0 < y k → ∀ᶠ s in 𝓝[≠] p, r < fn SmartNum.exactReal env x e s) ∧
    (Even k → y k < 0 → ∀ᶠ s in 𝓝[≠] p, fn SmartNum.exactReal env x e s < r) ∧
    (Odd k → 0 < y k → (∀ᶠ s in 𝓝[<] p, fn SmartNum.exactReal env x e s < r) ∧
      ∀ᶠ s in 𝓝[>] p, r < fn SmartNum.exactReal env x e s) ∧
    (Odd k → y k < 0 → (∀ᶠ s in 𝓝[<] p, r < fn SmartNum.exactReal env x e s) ∧
      ∀ᶠ s in 𝓝[>] p, fn SmartNum.exactReal env x e s < r) := by
  have hT := C95_leading m m' e v he hv x n t h hsv hs hl env p r hpt hr hp y hy k hk h0 h1
  have hlt : 𝓝[<] p ≤ 𝓝[≠] p := nhdsWithin_mono _ fun s (hs : s < p) => hs.ne
  have hgt : 𝓝[>] p ≤ 𝓝[≠] p := nhdsWithin_mono _ fun s (hs : p < s) => hs.ne'
  have pos : 0 < y k → ∀ᶠ s in 𝓝[≠] p, 0 < (fn SmartNum.exactReal env x e s - r) / (s - p) ^ k :=
    fun g => hT.eventually (lt_mem_nhds g)
  have neg : y k < 0 → ∀ᶠ s in 𝓝[≠] p, (fn SmartNum.exactReal env x e s - r) / (s - p) ^ k < 0 :=
    fun g => hT.eventually (gt_mem_nhds g)
  refine ⟨fun hE g => ?_, fun hE g => ?_, fun hO g => ⟨?_, ?_⟩, fun hO g => ⟨?_, ?_⟩⟩
  · filter_upwards [pos g, self_mem_nhdsWithin] with s h2 h3
    exact sub_pos.1 ((div_pos_iff_of_pos_right (hE.pow_pos (sub_ne_zero.2 h3))).1 h2)
  · filter_upwards [neg g, self_mem_nhdsWithin] with s h2 h3
    exact sub_neg.1 (by
      have := hE.pow_pos (sub_ne_zero.2 h3)
      rcases div_neg_iff.1 h2 with h | h
      · linarith
      · exact h.1)
  · filter_upwards [hlt (pos g), self_mem_nhdsWithin] with s h2 h3
    have := hO.pow_neg (sub_neg.2 (show s < p from h3))
    rcases div_pos_iff.1 h2 with h | h
    · linarith
    · linarith
  · filter_upwards [hgt (pos g), self_mem_nhdsWithin] with s h2 h3
    have := pow_pos (sub_pos.2 (show p < s from h3)) k
    rcases div_pos_iff.1 h2 with h | h
    · linarith
    · linarith
  · filter_upwards [hlt (neg g), self_mem_nhdsWithin] with s h2 h3
    have := hO.pow_neg (sub_neg.2 (show s < p from h3))
    rcases div_neg_iff.1 h2 with h | h
    · linarith
    · linarith
  · filter_upwards [hgt (neg g), self_mem_nhdsWithin] with s h2 h3
    have := pow_pos (sub_pos.2 (show p < s from h3)) k
    rcases div_neg_iff.1 h2 with h | h
    · linarith
    · linarith

omit hk h0 h1 in
/-- **C95** (necessity). At a local minimum coefficient 1 is 0 and coefficient 2 at least 0; at a local maximum coefficient 1 is
0 and coefficient 2 at most 0 (expansions of order 2 or more). -/
theorem C95_necessary (h2 : 2 ≤ n.toNat) :
    (IsLocalMin (fn SmartNum.exactReal env x e) p → y 1 = 0 ∧ 0 ≤ y 2) ∧
    (IsLocalMax (fn SmartNum.exactReal env x e) p → y 1 = 0 ∧ y 2 ≤ 0) := by
  have hv0 : fn SmartNum.exactReal env x e p = r := by rw [fn, hr]; rfl
  have hlt : 𝓝[<] p ≤ 𝓝 p := nhdsWithin_le_nhds
  have hgt : 𝓝[>] p ≤ 𝓝 p := nhdsWithin_le_nhds
  have hne : 𝓝[≠] p ≤ 𝓝 p := nhdsWithin_le_nhds
  have E1 := C95_extremum m m' e v he hv x n t h hsv hs hl env p r hpt hr hp y hy 1 (by omega) (fun i _ _ => by omega) le_rfl
  have E2 := fun h1 : y 1 = 0 => C95_extremum m m' e v he hv x n t h hsv hs hl env p r hpt hr hp y hy 2 h2
    (fun i _ _ => by obtain rfl : i = 1 := by omega
                     exact h1) (by omega)
  have clash : ∀ {l : Filter ℝ} [l.NeBot], l ≤ 𝓝 p → (∀ᶠ s in 𝓝 p, r ≤ fn SmartNum.exactReal env x e s) →
      (∀ᶠ s in l, fn SmartNum.exactReal env x e s < r) → False := fun hl' g1 g2 => by
    obtain ⟨s, g3, g4⟩ := ((g1.filter_mono hl').and g2).exists
    exact absurd g3 (not_le.2 g4)
  have clash' : ∀ {l : Filter ℝ} [l.NeBot], l ≤ 𝓝 p → (∀ᶠ s in 𝓝 p, fn SmartNum.exactReal env x e s ≤ r) →
      (∀ᶠ s in l, r < fn SmartNum.exactReal env x e s) → False := fun hl' g1 g2 => by
    obtain ⟨s, g3, g4⟩ := ((g1.filter_mono hl').and g2).exists
    exact absurd g3 (not_le.2 g4)
  refine ⟨fun hm => ?_, fun hm => ?_⟩
  · have hm' : ∀ᶠ s in 𝓝 p, r ≤ fn SmartNum.exactReal env x e s := by
      filter_upwards [hm] with s hs'; rwa [hv0] at hs'
    have z : y 1 = 0 := by
      rcases lt_trichotomy (y 1) 0 with g | g | g
      · exact (clash hgt hm' (E1.2.2.2 odd_one g).2).elim
      · exact g
      · exact (clash hlt hm' (E1.2.2.1 odd_one g).1).elim
    exact ⟨z, not_lt.1 fun g => clash hne hm' ((E2 z).2.1 even_two g)⟩
  · have hm' : ∀ᶠ s in 𝓝 p, fn SmartNum.exactReal env x e s ≤ r := by
      filter_upwards [hm] with s hs'; rwa [hv0] at hs'
    have z : y 1 = 0 := by
      rcases lt_trichotomy (y 1) 0 with g | g | g
      · exact (clash' hlt hm' (E1.2.2.2 odd_one g).1).elim
      · exact g
      · exact (clash' hgt hm' (E1.2.2.1 odd_one g).2).elim
    exact ⟨z, not_lt.1 fun g => clash' hne hm' ((E2 z).1 even_two g)⟩

end

/-- Non-vacuous: the expansion of order 2 of `cos(x)` at 0 is 1 + 0 x - 1/2 x²: the first coefficient that is not 0 is that of
order 2, and it is negative. -/
theorem C95_instance (env : Env) :
    let x : Expr F := newVariable "x"
    let y : Nat → ℝ := fun k => if k = 0 then 1 else if k = 2 then -(1 / 2) else 0
    ∃ t, x.cos.taylorExpansion .strict ⟨"x"⟩ zero 2 = .ok t ∧ Built .debug x.cos ∧ Built .debug (zero : Expr F) ∧
    Safe SmartNum.exactReal Set.univ (zero : Expr F) ∧
    SafeD SmartNum.exactReal (AtPoint SmartNum.exactReal ⟨"x"⟩ (zero : Expr F)) x.cos ∧ NoLnIntoBase ⟨"x"⟩ zero x.cos ∧
    denote SmartNum.exactReal env (zero : Expr F) = some 0 ∧
    denote SmartNum.exactReal (env.set ⟨"x"⟩ 0) x.cos = some 1 ∧ PowOK SmartNum.exactReal (env.set ⟨"x"⟩ 0) ⟨"x"⟩ x.cos ∧
    (∀ k, k ≤ (2 : UInt64).toNat → ∃ c, t.coefficient[k]? = some c ∧ denote SmartNum.exactReal env c = some (y k)) ∧
    (∀ i, 1 ≤ i → i < 2 → y i = 0) ∧ y 2 < 0 ∧
    ∀ᶠ s in 𝓝[≠] 0, fn SmartNum.exactReal env ⟨"x"⟩ x.cos s < 1 := by
  intro x y
  have hx : x = ofVar ⟨"x"⟩ := rfl
  have g0 : ∀ env : Env, denote SmartNum.exactReal env (zero : Expr F) = some 0 := fun env => by
    rw [zero, denote_int]; simp [show (0 : Int64).toInt = 0 by decide]
  have g1 : ∀ env : Env, denote SmartNum.exactReal env (one : Expr F) = some 1 := fun env => by
    rw [one, denote_int]; simp [show (1 : Int64).toInt = 1 by decide]
  have b0 : Built .debug (zero : Expr F) := .num _ (.ofI64 0)
  have bc : Built .debug x.cos := .cos _ (.var _)
  have vc : denote SmartNum.exactReal (env.set ⟨"x"⟩ 0) x.cos = some 1 := denote_cos.2 ⟨0, by rw [hx]; simp, Real.cos_zero⟩
  have sv : Safe SmartNum.exactReal Set.univ (zero : Expr F) := safe_ofNum _
  have sd : SafeD SmartNum.exactReal (AtPoint SmartNum.exactReal ⟨"x"⟩ (zero : Expr F)) x.cos :=
    safeD_cos.2 ⟨⟨env.set ⟨"x"⟩ 0, ⟨env, 0, g0 env, rfl⟩, 0, by rw [hx]; simp, Real.pi_pos.ne⟩, safeD_ofVar _⟩
  have ln : NoLnIntoBase ⟨"x"⟩ (zero : Expr F) x.cos := noLnIntoBase_iff.2 (powAll_cos.2 (powAll_ofVar _))
  have pw : PowOK SmartNum.exactReal (env.set ⟨"x"⟩ 0) ⟨"x"⟩ x.cos := powAll_cos.2 (powAll_ofVar _)
  obtain ⟨t, ht⟩ : ∃ t, x.cos.taylorExpansion .strict ⟨"x"⟩ zero 2 = .ok t := Out.exists_of_isOk (by krfl)
  have hc : t.coefficient = [one, zero, ofNum ⟨.rational ⟨-1, 1, 2⟩, .nothing⟩] := by
    have : (match x.cos.taylorExpansion (F := F) .strict ⟨"x"⟩ zero 2 with | .ok t => t.coefficient | _ => []) =
      [one, zero, ofNum ⟨.rational ⟨-1, 1, 2⟩, .nothing⟩] := by krfl
    rwa [ht] at this
  have v2 : denote SmartNum.exactReal env (ofNum ⟨.rational ⟨-1, 1, 2⟩, .nothing⟩ : Expr F) = some (-(1 / 2)) := by
    rw [denote_ofNum]
    have : (⟨-1, 1, 2⟩ : RationalNum).value = -(1 / 2) := by decide +kernel
    simp [SmartNum.exactReal, SmartNum.exact?, SmartNumVal.exact?, this]
  have hy : ∀ k, k ≤ (2 : UInt64).toNat → ∃ c, t.coefficient[k]? = some c ∧ denote SmartNum.exactReal env c = some (y k) := by
    intro k hk
    rw [show (2 : UInt64).toNat = 2 by decide] at hk
    interval_cases k
    · exact ⟨_, by rw [hc]; rfl, by rw [g1 env]; simp [y]⟩
    · exact ⟨_, by rw [hc]; rfl, by rw [g0 env]; simp [y]⟩
    · exact ⟨_, by rw [hc]; rfl, by rw [v2]; simp [y]⟩
  have hz : ∀ i, 1 ≤ i → i < 2 → y i = 0 := fun i _ _ => by obtain rfl : i = 1 := by omega
                                                            simp [y]
  have hn : y 2 < 0 := by norm_num [y]
  exact ⟨t, ht, bc, b0, sv, sd, ln, g0 env, vc, pw, hy, hz, hn,
    (C95_extremum .debug .debug _ _ bc b0 ⟨"x"⟩ 2 t ht sv sd ln env 0 1 (g0 env) vc pw y hy 2 (by decide) hz (by omega)).2.1
      even_two hn⟩

end SymRust
