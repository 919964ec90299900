import Verif.Proofs.EndTree
/-! # Termination of `limit`, part 2: the chains of derivatives

`T t` stands for "`limit` terminates on every expression that `t` describes"; `TSys` lists what is used about it. -/

namespace SymRust.End
open Classical

set_option linter.unusedSectionVars false

variable {V : Type} [NumAlg V]
open Tm
open NumAlg (zero one isZ isO isPi isE)

namespace Tm

/-! ### levels -/

theorem lvl_agg (a : Tm V) : a.agg.lvl ≤ a.lvl := by
  induction a with
  | num | var => exact le_rfl
  | neg a i =>
    show (negR a.agg).lvl ≤ a.lvl
    rcases negR_cases a.agg with ⟨-, h⟩ | ⟨c, h, h'⟩ | ⟨-, -, h⟩
    · rw [h.lvl]; omega
    · rw [h'];  rw [h] at i; exact i
    · rw [h]; exact i
  | add a b i j =>
    show (addR a.agg b.agg).lvl ≤ max a.lvl b.lvl
    rcases addR_cases a.agg b.agg with ⟨-, -, h, -⟩ | ⟨-, -, h⟩ | ⟨-, -, h⟩ | ⟨-, -, -, h⟩
    · rw [h.lvl]; omega
    · rw [h]; omega
    · rw [h]; omega
    · rw [h]; simp only [Tm.lvl]; omega
  | sub a b i j =>
    show (subR a.agg b.agg).lvl ≤ max a.lvl b.lvl
    rcases subR_cases a.agg b.agg with ⟨-, -, h, -⟩ | ⟨-, -, h⟩ | ⟨-, -, h⟩ | ⟨-, -, -, h⟩
    · rw [h.lvl]; omega
    · rw [h]; simp only [Tm.lvl]; omega
    · rw [h]; omega
    · rw [h]; simp only [Tm.lvl]; omega
  | mul a b i j =>
    show (mulR a.agg b.agg).lvl ≤ max a.lvl b.lvl
    rcases mulR_cases a.agg b.agg with ⟨-, -, h, -⟩ | ⟨-, h⟩ | ⟨-, -, h⟩ | ⟨-, -, h⟩ | ⟨-, -, -, -, -, h⟩
    · rw [h.lvl]; omega
    · rw [h]; simp only [Tm.lvl]; omega
    · rw [h]; omega
    · rw [h]; omega
    · rw [h]; simp only [Tm.lvl]; omega
  | div a b i j =>
    show (divR a.agg b.agg).lvl ≤ max a.lvl b.lvl
    rcases divR_cases a.agg b.agg with ⟨-, -, h, -⟩ | ⟨-, -, h⟩ | ⟨-, -, h⟩
    · rw [h.lvl]; omega
    · rw [h]; simp only [Tm.lvl]; omega
    · rw [h]; simp only [Tm.lvl]; omega
  | sin a i =>
    show (sinR a.agg).lvl ≤ a.lvl + 1
    rcases sinR_cases a.agg with ⟨h, -⟩ | ⟨-, h, -⟩ <;> rw [h] <;> simp only [Tm.lvl] <;> omega
  | cos a i =>
    show (cosR a.agg).lvl ≤ a.lvl + 1
    rcases sinR_cases a.agg with ⟨-, h⟩ | ⟨-, -, h⟩ <;> rw [h] <;> simp only [Tm.lvl] <;> omega
  | exp a i =>
    show (expR a.agg).lvl ≤ a.lvl
    rcases expR_cases a.agg with h | ⟨-, h⟩ | ⟨c, h, h'⟩
    · rw [h]; exact i
    · rw [h.lvl]; omega
    · rw [h']; rw [h] at i; exact i
  | ln a i =>
    show (lnR a.agg).lvl ≤ a.lvl
    rcases lnR_cases a.agg with h | ⟨-, h⟩ | ⟨c, h, h'⟩
    · rw [h]; exact i
    · rw [h.lvl]; omega
    · rw [h']; rw [h] at i; exact i
  | pow a b i j =>
    show (powR a.agg b.agg).lvl ≤ max a.lvl b.lvl
    rcases powR_cases a.agg b.agg with h | ⟨-, h⟩ | ⟨-, h⟩ | ⟨c, h, h'⟩
    · rw [h]; simp only [Tm.lvl]; omega
    · rw [h.lvl]; omega
    · rw [h]; omega
    · rw [h']; rw [h] at i; simp only [Tm.lvl] at i; omega

theorem lvl_der (x : Variable) (a : Tm V) : (a.der x).lvl ≤ a.lvl := by
  induction a with
  | num => exact le_rfl
  | var y => simp only [der]; split_ifs <;> exact le_rfl
  | neg | add | sub | mul | div | sin | cos | exp | ln | pow =>
    refine (lvl_agg _).trans ?_
    simp only [Tm.lvl] at *
    omega

/-! ### nested arguments -/

/-- All arguments of sines, cosines, exponentials, logarithms and powers are stable after `K` passes. -/
def Ai (K : ℕ) : Tm V → Prop
  | .num _ => True
  | .var _ => True
  | .neg a => a.Ai K
  | .add a b => a.Ai K ∧ b.Ai K
  | .sub a b => a.Ai K ∧ b.Ai K
  | .mul a b => a.Ai K ∧ b.Ai K
  | .div a b => a.Ai K ∧ b.Ai K
  | .sin a => (agg^[K] a).St ∧ a.Ai K
  | .cos a => (agg^[K] a).St ∧ a.Ai K
  | .exp a => (agg^[K] a).St ∧ a.Ai K
  | .ln a => (agg^[K] a).St ∧ a.Ai K
  | .pow a b => ((agg^[K] a).St ∧ a.Ai K) ∧ (agg^[K] b).St ∧ b.Ai K

theorem isNum.ai {a : Tm V} (h : a.isNum) (K : ℕ) : a.Ai K := by obtain ⟨v, rfl⟩ := h.eq; trivial

theorem Ai.mono {K J : ℕ} (hJ : K ≤ J) {t : Tm V} (h : t.Ai K) : t.Ai J := by
  induction t with
  | num | var => trivial
  | neg a i => exact i h
  | add a b i j | sub a b i j | mul a b i j | div a b i j => exact ⟨i h.1, j h.2⟩
  | sin a i | cos a i | exp a i | ln a i => exact ⟨it_stable_mono h.1 hJ, i h.2⟩
  | pow a b i j => exact ⟨⟨it_stable_mono h.1.1 hJ, i h.1.2⟩, it_stable_mono h.2.1 hJ, j h.2.2⟩

theorem exists_ai (t : Tm V) : ∃ K, t.Ai K := by
  have two : ∀ {a b : Tm V}, (∃ K, a.Ai K) → (∃ K, b.Ai K) → ∃ K, a.Ai K ∧ b.Ai K := by
    rintro a b ⟨K, h⟩ ⟨J, h'⟩
    exact ⟨max K J, h.mono (le_max_left _ _), h'.mono (le_max_right _ _)⟩
  have one : ∀ {a : Tm V}, (∃ K, a.Ai K) → ∃ K, (agg^[K] a).St ∧ a.Ai K := by
    rintro a ⟨K, h⟩
    obtain ⟨J, h'⟩ := it_stable a
    exact ⟨max K J, it_stable_mono h' (le_max_right _ _), h.mono (le_max_left _ _)⟩
  induction t with
  | num | var => exact ⟨0, trivial⟩
  | neg a i => exact i
  | add a b i j | sub a b i j | mul a b i j | div a b i j => exact two i j
  | sin a i | cos a i | exp a i | ln a i => exact one i
  | pow a b i j =>
    obtain ⟨K, h1, h2⟩ := one i
    obtain ⟨J, h3, h4⟩ := one j
    exact ⟨max K J, ⟨it_stable_mono h1 (le_max_left _ _), h2.mono (le_max_left _ _)⟩,
      it_stable_mono h3 (le_max_right _ _), h4.mono (le_max_right _ _)⟩

section
variable {K : ℕ} {a b : Tm V}

theorem Ai.negR (h : a.Ai K) : (negR a).Ai K := by
  rcases negR_cases a with ⟨-, h'⟩ | ⟨c, h1, h2⟩ | ⟨-, -, h3⟩
  · exact h'.ai K
  · rw [h2]; rw [h1] at h; exact h
  · rw [h3]; exact h
theorem Ai.addR (ha : a.Ai K) (hb : b.Ai K) : (addR a b).Ai K := by
  rcases addR_cases a b with ⟨-, -, h, -⟩ | ⟨-, -, h⟩ | ⟨-, -, h⟩ | ⟨-, -, -, h⟩
  · exact h.ai K
  · rwa [h]
  · rwa [h]
  · rw [h]; exact ⟨ha, hb⟩
theorem Ai.subR (ha : a.Ai K) (hb : b.Ai K) : (subR a b).Ai K := by
  rcases subR_cases a b with ⟨-, -, h, -⟩ | ⟨-, -, h⟩ | ⟨-, -, h⟩ | ⟨-, -, -, h⟩
  · exact h.ai K
  · rw [h]; exact hb
  · rwa [h]
  · rw [h]; exact ⟨ha, hb⟩
theorem Ai.mulR (ha : a.Ai K) (hb : b.Ai K) : (mulR a b).Ai K := by
  rcases mulR_cases a b with ⟨-, -, h, -⟩ | ⟨-, h⟩ | ⟨-, -, h⟩ | ⟨-, -, h⟩ | ⟨-, -, -, -, -, h⟩
  · exact h.ai K
  · rw [h]; trivial
  · rwa [h]
  · rwa [h]
  · rw [h]; exact ⟨ha, hb⟩
theorem Ai.divR (ha : a.Ai K) (hb : b.Ai K) : (divR a b).Ai K := by
  rcases divR_cases a b with ⟨-, -, h, -⟩ | ⟨-, -, h⟩ | ⟨-, -, h⟩
  · exact h.ai K
  · rw [h]; trivial
  · rw [h]; exact ⟨ha, hb⟩
theorem Ai.sinR (hs : (agg^[K] a).St) (h : a.Ai K) : (sinR a).Ai K := by
  rcases sinR_cases a with ⟨h', -⟩ | ⟨-, h', -⟩
  · rw [h']; exact ⟨hs, h⟩
  · rw [h']; trivial
theorem Ai.cosR (hs : (agg^[K] a).St) (h : a.Ai K) : (cosR a).Ai K := by
  rcases sinR_cases a with ⟨-, h'⟩ | ⟨-, -, h'⟩
  · rw [h']; exact ⟨hs, h⟩
  · rw [h']; trivial
theorem Ai.expR (hs : (agg^[K] a).St) (h : a.Ai K) : (expR a).Ai K := by
  rcases expR_cases a with h' | ⟨-, h'⟩ | ⟨c, h1, h2⟩
  · rw [h']; exact ⟨hs, h⟩
  · exact h'.ai K
  · rw [h2]; rw [h1] at h; exact h.2
theorem Ai.lnR (hs : (agg^[K] a).St) (h : a.Ai K) : (lnR a).Ai K := by
  rcases lnR_cases a with h' | ⟨-, h'⟩ | ⟨c, h1, h2⟩
  · rw [h']; exact ⟨hs, h⟩
  · exact h'.ai K
  · rw [h2]; rw [h1] at h; exact h.2
theorem Ai.powR (hs : (agg^[K] a).St) (h : a.Ai K) (hs' : (agg^[K] b).St) (h' : b.Ai K) : (powR a b).Ai K := by
  rcases powR_cases a b with e | ⟨-, e⟩ | ⟨-, e⟩ | ⟨c, e1, e2⟩
  · rw [e]; exact ⟨⟨hs, h⟩, hs', h'⟩
  · exact e.ai K
  · rw [e]; exact h'
  · rw [e2]; rw [e1] at h; exact h.2

theorem Ai.agg_of {K J : ℕ} (hKJ : ∀ a : Tm V, (Tm.agg^[K] a).St → (Tm.agg^[J] a.agg).St) {t : Tm V} (h : t.Ai K) :
    t.agg.Ai J := by
  induction t with
  | num | var => trivial
  | neg a i => exact (i h).negR
  | add a b i j => exact (i h.1).addR (j h.2)
  | sub a b i j => exact (i h.1).subR (j h.2)
  | mul a b i j => exact (i h.1).mulR (j h.2)
  | div a b i j => exact (i h.1).divR (j h.2)
  | sin a i => exact Ai.sinR (hKJ _ h.1) (i h.2)
  | cos a i => exact Ai.cosR (hKJ _ h.1) (i h.2)
  | exp a i => exact Ai.expR (hKJ _ h.1) (i h.2)
  | ln a i => exact Ai.lnR (hKJ _ h.1) (i h.2)
  | pow a b i j => exact Ai.powR (hKJ _ h.1.1) (i h.1.2) (hKJ _ h.2.1) (j h.2.2)

theorem Ai.agg {t : Tm V} (h : t.Ai K) : t.agg.Ai K :=
  h.agg_of fun a ha => by
    rw [← Function.iterate_succ_apply]; exact it_stable_mono ha (Nat.le_succ K)
theorem Ai.agg' {t : Tm V} (h : t.Ai K) : t.agg.Ai (K - 1) := h.agg_of fun _ => it_pred

theorem Ai.der (x : Variable) {t : Tm V} (h : t.Ai K) : (t.der x).Ai (K - 1) := by
  induction t with
  | num => trivial
  | var y => simp only [Tm.der]; split_ifs <;> trivial
  | neg a i => exact (i h).agg.negR
  | add a b i j => exact (i h.1).agg.addR (j h.2).agg
  | sub a b i j => exact (i h.1).agg.subR (j h.2).agg
  | mul a b i j => exact ((i h.1).agg.mulR h.2.agg').addR (h.1.agg'.mulR (j h.2).agg)
  | div a b i j => exact (((i h.1).agg.mulR h.2.agg').subR (h.1.agg'.mulR (j h.2).agg)).divR (h.2.agg'.mulR h.2.agg')
  | sin a i => exact (Ai.cosR (it_pred h.1) h.2.agg').mulR (i h.2).agg
  | cos a i => exact (Ai.sinR (it_pred h.1) h.2.agg').negR.mulR (i h.2).agg
  | exp a i => exact (i h.2).agg.mulR (Ai.expR (it_pred h.1) h.2.agg')
  | ln a i => exact (i h.2).agg.divR h.2.agg'
  | pow a b i j =>
    exact (Ai.powR (it_pred h.1.1) h.1.2.agg' (it_pred h.2.1) h.2.2.agg').mulR
      (((j h.2.2).agg.mulR (Ai.lnR (it_pred h.1.1) h.1.2.agg')).addR
        ((h.2.2.agg'.mulR (i h.1.2).agg).divR h.1.2.agg'))

end

/-! ### trees all of whose clean parts are stable -/

/-- Every clean part outside negations, subtractions, exponentials, logarithms and powers is stable. -/
def Hd : Tm V → Prop
  | .num _ => True
  | .var _ => True
  | .neg a => a.Hd
  | .add a b => a.Hd ∧ b.Hd ∧ ((a.add b).Clean → (a.add b).St)
  | .sub _ _ => True
  | .mul a b => a.Hd ∧ b.Hd ∧ ((a.mul b).Clean → (a.mul b).St)
  | .div a b => a.Hd ∧ b.Hd ∧ ((a.div b).Clean → (a.div b).St)
  | .sin a => a.sin.St
  | .cos a => a.cos.St
  | .exp _ => True
  | .ln _ => True
  | .pow _ _ => True

theorem isNum.hd {a : Tm V} (h : a.isNum) : a.Hd := by obtain ⟨v, rfl⟩ := h.eq; trivial

theorem Hd.st {t : Tm V} (h : t.Hd) (hc : t.Clean) : t.St := by
  cases t with
  | num | var => rfl
  | neg | sub | exp | ln | pow => exact hc.elim
  | add | mul | div => exact h.2.2 hc
  | sin | cos => exact h

theorem St.hd {t : Tm V} (h : t.St) : t.Hd := by
  induction t with
  | num | var | sub | exp | ln | pow => trivial
  | neg a i => exact i (st_neg.1 h).1
  | add a b i j => exact ⟨i (st_add.1 h).1, j (st_add.1 h).2.1, fun _ => h⟩
  | mul a b i j => exact ⟨i (st_mul.1 h).1, j (st_mul.1 h).2.1, fun _ => h⟩
  | div a b i j => exact ⟨i (st_div.1 h).1, j (st_div.1 h).2.1, fun _ => h⟩
  | sin | cos => exact h

theorem St.sinR {a : Tm V} (h : a.St) : (sinR a).St := by
  rcases sinR_cases a with ⟨h', -⟩ | ⟨-, h', -⟩
  · rw [h']; exact st_sin.2 ⟨h, h'⟩
  · rw [h']; rfl
theorem St.cosR {a : Tm V} (h : a.St) : (cosR a).St := by
  rcases sinR_cases a with ⟨-, h'⟩ | ⟨-, -, h'⟩
  · rw [h']; exact st_cos.2 ⟨h, h'⟩
  · rw [h']; rfl
theorem St.expR {a : Tm V} (h : a.St) : (expR a).St := by
  rcases expR_cases a with h' | ⟨-, h'⟩ | ⟨c, h1, h2⟩
  · rw [h']; exact st_exp.2 ⟨h, h'⟩
  · exact h'.st
  · rw [h2]; rw [h1] at h; exact (st_ln.1 h).1
theorem St.lnR {a : Tm V} (h : a.St) : (lnR a).St := by
  rcases lnR_cases a with h' | ⟨-, h'⟩ | ⟨c, h1, h2⟩
  · rw [h']; exact st_ln.2 ⟨h, h'⟩
  · exact h'.st
  · rw [h2]; rw [h1] at h; exact (st_exp.1 h).1
theorem St.powR {a b : Tm V} (h : a.St) (hb : b.St) : (powR a b).St := by
  rcases powR_cases a b with e | ⟨-, e⟩ | ⟨-, e⟩ | ⟨c, e1, e2⟩
  · rw [e]; exact st_pow.2 ⟨h, hb, e⟩
  · exact e.st
  · rwa [e]
  · rw [e2]; rw [e1] at h; exact (st_ln.1 h).1

theorem Hd.agg {t : Tm V} (h : t.Ai 0) : t.agg.Hd := by
  induction t with
  | num | var => trivial
  | neg a i =>
    have i := i h
    show (negR a.agg).Hd
    rcases negR_cases a.agg with ⟨-, h'⟩ | ⟨c, h1, h2⟩ | ⟨-, -, h3⟩
    · exact h'.hd
    · rw [h2]; rw [h1] at i; exact i
    · rw [h3]; exact i
  | add a b i j =>
    have i := i h.1; have j := j h.2
    show (addR a.agg b.agg).Hd
    rcases addR_cases a.agg b.agg with ⟨-, -, h, -⟩ | ⟨-, -, h⟩ | ⟨-, -, h⟩ | ⟨-, -, -, h⟩
    · exact h.hd
    · rwa [h]
    · rwa [h]
    · rw [h]; exact ⟨i, j, fun hc => by rw [← h]; exact (i.st hc.1).addR (j.st hc.2)⟩
  | sub a b i j =>
    have i := i h.1; have j := j h.2
    show (subR a.agg b.agg).Hd
    rcases subR_cases a.agg b.agg with ⟨-, -, h, -⟩ | ⟨-, -, h⟩ | ⟨-, -, h⟩ | ⟨-, -, -, h⟩
    · exact h.hd
    · rw [h]; exact j
    · rwa [h]
    · rw [h]; trivial
  | mul a b i j =>
    have i := i h.1; have j := j h.2
    show (mulR a.agg b.agg).Hd
    rcases mulR_cases a.agg b.agg with ⟨-, -, h, -⟩ | ⟨-, h⟩ | ⟨-, -, h⟩ | ⟨-, -, h⟩ | ⟨-, -, -, -, -, h⟩
    · exact h.hd
    · rw [h]; trivial
    · rwa [h]
    · rwa [h]
    · rw [h]; exact ⟨i, j, fun hc => by rw [← h]; exact (i.st hc.1).mulR (j.st hc.2)⟩
  | div a b i j =>
    have i := i h.1; have j := j h.2
    show (divR a.agg b.agg).Hd
    rcases divR_cases a.agg b.agg with ⟨-, -, h, -⟩ | ⟨-, -, h⟩ | ⟨-, -, h⟩
    · exact h.hd
    · rw [h]; trivial
    · rw [h]; exact ⟨i, j, fun hc => by rw [← h]; exact (i.st hc.1).divR (j.st hc.2)⟩
  | sin a i =>
    have e : a.agg = a := h.1
    refine St.hd (?_ : (Tm.sinR a.agg).St)
    rw [e]; exact St.sinR h.1
  | cos a i =>
    have e : a.agg = a := h.1
    refine St.hd (?_ : (Tm.cosR a.agg).St)
    rw [e]; exact St.cosR h.1
  | exp a i =>
    have e : a.agg = a := h.1
    refine St.hd (?_ : (Tm.expR a.agg).St)
    rw [e]; exact St.expR h.1
  | ln a i =>
    have e : a.agg = a := h.1
    refine St.hd (?_ : (Tm.lnR a.agg).St)
    rw [e]; exact St.lnR h.1
  | pow a b i j =>
    have e : a.agg = a := h.1.1
    have e' : b.agg = b := h.2.1
    refine St.hd (?_ : (Tm.powR a.agg b.agg).St)
    rw [e, e']; exact St.powR h.1.1 h.2.1

theorem Hd.der (x : Variable) {t : Tm V} (h : t.Ai 0) : (t.der x).Hd := by
  have d : ∀ {a : Tm V}, a.Ai 0 → (a.der x).Ai 0 := fun h => h.der x
  cases t with
  | num => trivial
  | var y => simp only [Tm.der]; split_ifs <;> trivial
  | neg a => exact Hd.agg (t := (a.der x).neg) (d h)
  | add a b => exact Hd.agg (t := (a.der x).add (b.der x)) ⟨d h.1, d h.2⟩
  | sub a b => exact Hd.agg (t := (a.der x).sub (b.der x)) ⟨d h.1, d h.2⟩
  | mul a b => exact Hd.agg (t := ((a.der x).mul b).add (a.mul (b.der x))) ⟨⟨d h.1, h.2⟩, h.1, d h.2⟩
  | div a b => exact Hd.agg (t := (((a.der x).mul b).sub (a.mul (b.der x))).div (b.mul b)) ⟨⟨⟨d h.1, h.2⟩, h.1, d h.2⟩, h.2, h.2⟩
  | sin a => exact Hd.agg (t := a.cos.mul (a.der x)) ⟨h, d h.2⟩
  | cos a => exact Hd.agg (t := a.sin.neg.mul (a.der x)) ⟨h, d h.2⟩
  | exp a => exact Hd.agg (t := (a.der x).mul a.exp) ⟨d h.2, h⟩
  | ln a => exact Hd.agg (t := (a.der x).div a) ⟨d h.2, h.2⟩
  | pow a b => exact Hd.agg (t := (a.pow b).mul (((b.der x).mul a.ln).add ((b.mul (a.der x)).div a))) ⟨h, ⟨d h.2.2, h.1⟩, ⟨h.2.2, d h.1.2⟩, h.1.2⟩

/-! ### derivatives of stable trees -/

/-- The aggregated derivative. -/
noncomputable def D (x : Variable) (s : Tm V) : Tm V := (s.der x).agg

variable {x : Variable}

theorem subR_agg {a b : Tm V} (ha : a.St) (hb : b.St) : (subR a b).agg.St := by
  rcases ha.subR hb with h | ⟨-, h1, h2⟩
  · rw [h]; exact h
  · obtain ⟨c, rfl⟩ := h1.eq
    rw [h2]
    show (Tm.negR c.neg.agg).St
    rw [hb]; exact (st_neg.1 hb).1

theorem D_st {s : Tm V} (h : s.St) : (D x s).St := by
  induction s with
  | num => rfl
  | var y => simp only [D, Tm.der]; split_ifs <;> rfl
  | neg a i =>
    have := (i (st_neg.1 h).1).negR
    have e : (a.neg.der x) = Tm.negR (D x a) := rfl
    unfold D; rw [e, this]; exact this
  | add a b i j =>
    have := (i (st_add.1 h).1).addR (j (st_add.1 h).2.1)
    have e : ((a.add b).der x) = Tm.addR (D x a) (D x b) := rfl
    unfold D; rw [e, this]; exact this
  | sub a b i j => exact subR_agg (i (st_sub.1 h).1) (j (st_sub.1 h).2.1)
  | mul a b i j =>
    obtain ⟨ha, hb, -⟩ := st_mul.1 h
    have := ((i ha).mulR hb).addR (ha.mulR (j hb))
    have e : ((a.mul b).der x) = Tm.addR (Tm.mulR (D x a) b.agg) (Tm.mulR a.agg (D x b)) := rfl
    unfold D; rw [e, ha, hb, this]; exact this
  | div a b i j =>
    obtain ⟨ha, hb, -⟩ := st_div.1 h
    have e : ((a.div b).der x) = Tm.divR (Tm.subR (Tm.mulR (D x a) b.agg) (Tm.mulR a.agg (D x b))) (Tm.mulR b.agg b.agg) := rfl
    unfold D; rw [e, ha, hb]
    have hs := subR_agg ((i ha).mulR hb) (ha.mulR (j hb))
    have hw := hb.mulR hb
    generalize Tm.subR (Tm.mulR (D x a) b) (Tm.mulR a (D x b)) = N at *
    generalize Tm.mulR b b = W at *
    rcases divR_cases N W with ⟨-, -, h, -⟩ | ⟨-, -, h⟩ | ⟨-, -, h⟩
    · rw [h.agg]; exact h.st
    · rw [h]; rfl
    · rw [h]; show (Tm.divR N.agg W.agg).St
      rw [hw]; exact hs.divR hw
  | sin a i =>
    obtain ⟨ha, -⟩ := st_sin.1 h
    have := (ha.cosR).mulR (i ha)
    have e : (a.sin.der x) = Tm.mulR (Tm.cosR a.agg) (D x a) := rfl
    unfold D; rw [e, ha, this]; exact this
  | cos a i =>
    obtain ⟨ha, -⟩ := st_cos.1 h
    have := (ha.sinR).negR.mulR (i ha)
    have e : (a.cos.der x) = Tm.mulR (Tm.negR (Tm.sinR a.agg)) (D x a) := rfl
    unfold D; rw [e, ha, this]; exact this
  | exp a i =>
    obtain ⟨ha, -⟩ := st_exp.1 h
    have := (i ha).mulR ha.expR
    have e : (a.exp.der x) = Tm.mulR (D x a) (Tm.expR a.agg) := rfl
    unfold D; rw [e, ha, this]; exact this
  | ln a i =>
    obtain ⟨ha, -⟩ := st_ln.1 h
    have := (i ha).divR ha
    have e : (a.ln.der x) = Tm.divR (D x a) a.agg := rfl
    unfold D; rw [e, ha, this]; exact this
  | pow a b i j =>
    obtain ⟨ha, hb, -⟩ := st_pow.1 h
    have := (ha.powR hb).mulR (((j hb).mulR ha.lnR).addR ((hb.mulR (i ha)).divR ha))
    have e : ((a.pow b).der x) = Tm.mulR (Tm.powR a.agg b.agg) (Tm.addR (Tm.mulR (D x b) (Tm.lnR a.agg))
      (Tm.divR (Tm.mulR b.agg (D x a)) a.agg)) := rfl
    unfold D; rw [e, ha, hb, this]; exact this

theorem num_st (v : V) : (num v).St := rfl
theorem D_num {a : Tm V} (h : a.isNum) : D x a = num zero := by obtain ⟨v, rfl⟩ := h.eq; rfl
theorem not_num_of_D {a : Tm V} (h : ¬ (D x a).Z) : ¬ a.isNum := fun h' => h (by rw [D_num h']; exact Z_zero)

theorem der_add {a b : Tm V} : (a.add b).der x = addR (D x a) (D x b) := rfl
theorem D_add {a b : Tm V} (ha : a.St) (hb : b.St) : D x (a.add b) = addR (D x a) (D x b) := (D_st ha).addR (D_st hb)
theorem der_mul {a b : Tm V} (ha : a.St) (hb : b.St) : (a.mul b).der x = addR (mulR (D x a) b) (mulR a (D x b)) := by
  have e : ((a.mul b).der x) = Tm.addR (Tm.mulR (D x a) b.agg) (Tm.mulR a.agg (D x b)) := rfl
  rw [e, ha, hb]
theorem D_mul {a b : Tm V} (ha : a.St) (hb : b.St) : D x (a.mul b) = addR (mulR (D x a) b) (mulR a (D x b)) := by
  unfold D; rw [der_mul ha hb]; exact ((D_st ha).mulR hb).addR (ha.mulR (D_st hb))
theorem der_div {a b : Tm V} (ha : a.St) (hb : b.St) :
    (a.div b).der x = divR (subR (mulR (D x a) b) (mulR a (D x b))) (mulR b b) := by
  have e : ((a.div b).der x) = Tm.divR (Tm.subR (Tm.mulR (D x a) b.agg) (Tm.mulR a.agg (D x b))) (Tm.mulR b.agg b.agg) := rfl
  rw [e, ha, hb]
theorem D_div {a b : Tm V} (ha : a.St) (hb : b.St) :
    D x (a.div b) = (divR (subR (mulR (D x a) b) (mulR a (D x b))) (mulR b b)).agg := by
  unfold D; rw [der_div ha hb]; rfl
theorem der_sin {a : Tm V} (ha : a.sin.St) : a.sin.der x = mulR a.cos (D x a) := by
  obtain ⟨h, h'⟩ := st_sin.1 ha
  have e : (a.sin.der x) = Tm.mulR (Tm.cosR a.agg) (D x a) := rfl
  rw [e, h, sinR_iff_cosR.1 h']
theorem D_sin {a : Tm V} (ha : a.sin.St) : D x a.sin = mulR a.cos (D x a) := by
  unfold D; rw [der_sin ha]
  obtain ⟨h, h'⟩ := st_sin.1 ha
  exact St.mulR (st_cos.2 ⟨h, sinR_iff_cosR.1 h'⟩) (D_st h)
theorem der_cos {a : Tm V} (ha : a.cos.St) : a.cos.der x = mulR a.sin.neg (D x a) := by
  obtain ⟨h, h'⟩ := st_cos.1 ha
  have e : (a.cos.der x) = Tm.mulR (Tm.negR (Tm.sinR a.agg)) (D x a) := rfl
  rw [e, h, sinR_iff_cosR.2 h']; rfl
theorem st_negSin {a : Tm V} (ha : a.cos.St) : a.sin.neg.St := by
  obtain ⟨h, h'⟩ := st_cos.1 ha
  exact st_neg.2 ⟨st_sin.2 ⟨h, sinR_iff_cosR.2 h'⟩, by simp, by simp⟩
theorem D_cos {a : Tm V} (ha : a.cos.St) : D x a.cos = mulR a.sin.neg (D x a) := by
  unfold D; rw [der_cos ha]
  exact (st_negSin ha).mulR (D_st (st_cos.1 ha).1)

/-- The derivative of a stable clean tree is stable, or a quotient with a negation on top. -/
theorem der_eq_D {s : Tm V} (h : s.St) (hc : s.Clean) : s.der x = D x s ∨ ∃ B W, s.der x = (neg B).div W := by
  cases s with
  | num => exact .inl rfl
  | var y => left; simp only [D, Tm.der]; split_ifs <;> rfl
  | neg | sub | exp | ln | pow => exact hc.elim
  | add a b => obtain ⟨ha, hb, -⟩ := st_add.1 h; exact .inl (D_add ha hb).symm
  | mul a b => obtain ⟨ha, hb, -⟩ := st_mul.1 h; exact .inl (by rw [der_mul ha hb, D_mul ha hb])
  | sin a => exact .inl (by rw [der_sin h, D_sin h])
  | cos a => exact .inl (by rw [der_cos h, D_cos h])
  | div a b =>
    obtain ⟨ha, hb, -⟩ := st_div.1 h
    rw [der_div ha hb, D_div ha hb]
    rcases ((D_st ha).mulR hb).subR (ha.mulR (D_st (x := x) hb)) with h | ⟨-, -, h⟩
    · left; exact (h.divR (hb.mulR hb)).symm
    · right; rw [h]; exact ⟨_, _, rfl⟩

/-! ### the rules on zeros -/

theorem mulR_Z {a b : Tm V} (h : a.Z ∨ b.Z) : (mulR a b).Z := by
  rcases mulR_cases a b with ⟨-, -, -, h'⟩ | ⟨-, h'⟩ | ⟨h1, h2, -⟩ | ⟨h1, h2, -⟩ | ⟨-, h1, h2, -⟩
  · exact h' h
  · rw [h']; exact Z_zero
  · rcases h with h | h
    · exact absurd h h1.not_Z
    · exact absurd h.isNum h2
  · rcases h with h | h
    · exact absurd h.isNum h2
    · exact absurd h h1.not_Z
  · exact (h.elim h1 h2).elim
theorem divR_Z {a b : Tm V} (h : a.Z) : (divR a b).Z := by
  rcases divR_cases a b with ⟨-, -, -, h'⟩ | ⟨-, -, h'⟩ | ⟨-, h1, -⟩
  · exact h' h
  · rw [h']; exact Z_zero
  · exact absurd h h1
theorem addR_Z_right {a b : Tm V} (h : b.Z) : addR a b = a ∨ ((addR a b).isNum ∧ (a.Z → (addR a b).Z)) := by
  rcases addR_cases a b with ⟨-, -, h1, h2⟩ | ⟨-, h1, -⟩ | ⟨-, -, h1⟩ | ⟨-, -, h1, -⟩
  · exact .inr ⟨h1, fun ha => h2 ha h⟩
  · exact absurd h.isNum h1
  · exact .inl h1
  · exact absurd h h1
theorem addR_Z_left {a b : Tm V} (h : a.Z) : addR a b = b ∨ ((addR a b).isNum ∧ (b.Z → (addR a b).Z)) := by
  rcases addR_cases a b with ⟨-, -, h1, h2⟩ | ⟨-, -, h1⟩ | ⟨-, h1, -⟩ | ⟨-, h1, -, -⟩
  · exact .inr ⟨h1, h2 h⟩
  · exact .inl h1
  · exact absurd h.isNum h1
  · exact absurd h h1
theorem subR_Z_right {a b : Tm V} (h : b.Z) : subR a b = a ∨ ((subR a b).isNum ∧ (a.Z → (subR a b).Z)) := by
  rcases subR_cases a b with ⟨-, -, h1, h2⟩ | ⟨-, h1, -⟩ | ⟨-, -, h1⟩ | ⟨-, -, h1, -⟩
  · exact .inr ⟨h1, fun ha => h2 ha h⟩
  · exact absurd h.isNum h1
  · exact .inl h1
  · exact absurd h h1
theorem subR_Z_left {a b : Tm V} (h : a.Z) (hb : ¬ b.isNum) : subR a b = b.neg := by
  rcases subR_cases a b with ⟨-, h1, -, -⟩ | ⟨-, -, h1⟩ | ⟨-, h1, -⟩ | ⟨-, h1, -, -⟩
  · exact absurd h1 hb
  · exact h1
  · exact absurd h.isNum h1
  · exact absurd h h1
theorem mulR_not_num {a b : Tm V} (ha : ¬ a.isNum) (hb : ¬ b.Z) : ¬ (mulR a b).isNum := by
  rcases mulR_cases a b with ⟨h, -⟩ | ⟨h | h, -⟩ | ⟨h, -⟩ | ⟨-, -, h'⟩ | ⟨-, -, -, -, -, h'⟩
  · exact absurd h ha
  · exact absurd h.isNum ha
  · exact absurd h hb
  · exact absurd h.isNum ha
  · rwa [h']
  · rw [h']; simp
theorem mulR_not_num' {a b : Tm V} (hb : ¬ b.isNum) (ha : ¬ a.Z) : ¬ (mulR a b).isNum := by
  rcases mulR_cases a b with ⟨-, h, -⟩ | ⟨h | h, -⟩ | ⟨-, -, h'⟩ | ⟨h, -⟩ | ⟨-, -, -, -, -, h'⟩
  · exact absurd h hb
  · exact absurd h ha
  · exact absurd h.isNum hb
  · rwa [h']
  · exact absurd h.isNum hb
  · rw [h']; simp
theorem mulR_isNeg {a b : Tm V} (h : (mulR a b).isNeg) : (a.O ∧ b.isNeg ∧ mulR a b = b) ∨ (b.O ∧ a.isNeg ∧ mulR a b = a) := by
  rcases mulR_cases a b with ⟨-, -, h', -⟩ | ⟨-, h'⟩ | ⟨h0, -, h'⟩ | ⟨h0, -, h'⟩ | ⟨-, -, -, -, -, h'⟩
  · obtain ⟨v, hv⟩ := h'.eq; rw [hv] at h; simp at h
  · rw [h'] at h; simp at h
  · rw [h'] at h; exact .inl ⟨h0, h, h'⟩
  · rw [h'] at h; exact .inr ⟨h0, h, h'⟩
  · rw [h'] at h; simp at h
theorem addR_isNeg {a b : Tm V} (h : (addR a b).isNeg) : (b.isNeg ∧ addR a b = b) ∨ (a.isNeg ∧ addR a b = a) := by
  rcases addR_cases a b with ⟨-, -, h', -⟩ | ⟨-, -, h'⟩ | ⟨-, -, h'⟩ | ⟨-, -, -, h'⟩
  · obtain ⟨v, hv⟩ := h'.eq; rw [hv] at h; simp at h
  · rw [h'] at h; exact .inl ⟨h, h'⟩
  · rw [h'] at h; exact .inr ⟨h, h'⟩
  · rw [h'] at h; simp at h
theorem addR_of {a b : Tm V} (ha : ¬ a.isNum) (hb : ¬ b.isNum) : addR a b = a.add b := by
  rcases addR_cases a b with ⟨h, -⟩ | ⟨h, -⟩ | ⟨h, -⟩ | ⟨-, -, -, h⟩
  · exact absurd h ha
  · exact absurd h.isNum ha
  · exact absurd h.isNum hb
  · exact h
theorem subR_of {a b : Tm V} (ha : ¬ a.Z) (hb : ¬ b.isNum) : subR a b = a.sub b := by
  rcases subR_cases a b with ⟨-, h, -⟩ | ⟨h, -⟩ | ⟨h, -⟩ | ⟨-, -, -, h⟩
  · exact absurd h hb
  · exact absurd h ha
  · exact absurd h.isNum hb
  · exact h
theorem mulR_of {a b : Tm V} (ha : ¬ a.isNum) (hb : ¬ b.isNum) : mulR a b = a.mul b := by
  rcases mulR_cases a b with ⟨h, -⟩ | ⟨h | h, -⟩ | ⟨h, -⟩ | ⟨h, -⟩ | ⟨-, -, -, -, -, h⟩
  · exact absurd h ha
  · exact absurd h.isNum ha
  · exact absurd h.isNum hb
  · exact absurd h.isNum ha
  · exact absurd h.isNum hb
  · exact h
theorem divR_of {a b : Tm V} (ha : ¬ a.isNum) : divR a b = a.div b := by
  rcases divR_cases a b with ⟨h, -⟩ | ⟨h, -⟩ | ⟨-, -, h⟩
  · exact absurd h ha
  · exact absurd h.isNum ha
  · exact h
theorem mulR_O_right {a b : Tm V} (ha : ¬ a.isNum) (hb : b.O) : mulR a b = a := by
  rcases mulR_cases a b with ⟨h, -⟩ | ⟨h | h, -⟩ | ⟨h, -⟩ | ⟨-, -, h⟩ | ⟨-, -, -, -, h, -⟩
  · exact absurd h ha
  · exact absurd h.isNum ha
  · exact absurd h hb.not_Z
  · exact absurd h.isNum ha
  · exact h
  · exact absurd hb h

theorem mulR_one_l {a b : Tm V} (ha : a.O) (hb : ¬ b.isNum) : mulR a b = b := by
  rcases mulR_cases a b with ⟨-, h, -⟩ | ⟨h | h, -⟩ | ⟨-, -, h⟩ | ⟨h, -⟩ | ⟨-, -, -, h, -⟩
  · exact absurd h hb
  · exact absurd h ha.not_Z
  · exact absurd h.isNum hb
  · exact h
  · exact absurd h.isNum hb
  · exact absurd ha h
theorem mulR_zero_l {a b : Tm V} (ha : a.Z) (hb : ¬ b.isNum) : mulR a b = num zero := by
  rcases mulR_cases a b with ⟨-, h, -⟩ | ⟨-, h⟩ | ⟨h, -⟩ | ⟨h, -⟩ | ⟨-, h, -⟩
  · exact absurd h hb
  · exact h
  · exact absurd ha h.not_Z
  · exact absurd h.isNum hb
  · exact absurd ha h
theorem mulR_zero_r {a b : Tm V} (hb : b.Z) (ha : ¬ a.isNum) : mulR a b = num zero := by
  rcases mulR_cases a b with ⟨h, -⟩ | ⟨-, h⟩ | ⟨h, -⟩ | ⟨h, -⟩ | ⟨-, -, h, -⟩
  · exact absurd h ha
  · exact h
  · exact absurd h.isNum ha
  · exact absurd hb h.not_Z
  · exact absurd hb h

theorem Clean.not_neg {a : Tm V} (h : a.Clean) : ¬ a.isNeg := fun h' => by obtain ⟨c, rfl⟩ := h'.eq; exact h

theorem st_sq {r : Tm V} (h : r.St) (hn : ¬ r.isNum) : (r.mul r).St :=
  st_mul.2 ⟨h, h, fun h => hn h.1, fun h => hn h.isNum, fun h => hn h.isNum, fun h => hn h.isNum, fun h => hn h.isNum⟩

/-- A clean tree whose derivative is a negation: it behaves like a cosine. -/
theorem cosL {j : Tm V} (hs : j.St) (hc : j.Clean) (h : (D x j).isNeg) : ∃ w : Tm V, D x j = w.sin.neg ∧ (D x w).O ∧ w.St := by
  induction j with
  | num => simp [D, der, Tm.agg] at h
  | var y => unfold D der at h; split_ifs at h <;> simp [Tm.agg] at h
  | neg | sub | exp | ln | pow => cases hc
  | add a b i j =>
    obtain ⟨ha, hb, -⟩ := st_add.1 hs
    rw [D_add ha hb] at h ⊢
    rcases addR_isNeg h with ⟨h1, h2⟩ | ⟨h1, h2⟩
    · rw [h2]; exact j hb hc.2 h1
    · rw [h2]; exact i ha hc.1 h1
  | mul a b i j =>
    obtain ⟨ha, hb, -, -, -, oa, ob⟩ := st_mul.1 hs
    rw [D_mul ha hb] at h
    rcases addR_isNeg h with ⟨h1, -⟩ | ⟨h1, -⟩
    · rcases mulR_isNeg h1 with ⟨h, -⟩ | ⟨-, h, -⟩
      · exact absurd h oa
      · exact absurd h hc.1.not_neg
    · rcases mulR_isNeg h1 with ⟨-, h, -⟩ | ⟨h, -⟩
      · exact absurd h hc.2.not_neg
      · exact absurd h ob
  | div a b i j =>
    obtain ⟨ha, hb, -⟩ := st_div.1 hs
    rw [D_div ha hb] at h
    generalize subR (mulR (D x a) b) (mulR a (D x b)) = N at *
    generalize mulR b b = W at *
    have key : ∀ N W : Tm V, ¬ (divR N W).isNeg := by
      intro N W h
      rcases divR_cases N W with ⟨-, -, h', -⟩ | ⟨-, -, h'⟩ | ⟨-, -, h'⟩
      · obtain ⟨v, hv⟩ := h'.eq; rw [hv] at h; simp at h
      · rw [h'] at h; simp at h
      · rw [h'] at h; simp at h
    rcases divR_cases N W with ⟨-, -, h', -⟩ | ⟨-, -, h'⟩ | ⟨-, -, h'⟩
    · obtain ⟨v, hv⟩ := h'.eq; rw [hv] at h; simp [Tm.agg] at h
    · rw [h'] at h; simp [Tm.agg] at h
    · rw [h'] at h; exact absurd h (key _ _)
  | sin u =>
    rw [D_sin hs] at h
    rcases mulR_isNeg h with ⟨h, -⟩ | ⟨-, h, -⟩
    · exact h.elim
    · simp at h
  | cos u =>
    rw [D_cos hs] at h ⊢
    rcases mulR_isNeg h with ⟨h, -⟩ | ⟨h1, -, h2⟩
    · exact h.elim
    · exact ⟨u, h2, h1, (st_cos.1 hs).1⟩

end Tm

/-! ### chains of derivatives -/

/-- `T` for `t` and, as long as they can be asked for, its first `k` derivatives. -/
def CT (x : Variable) (T : Tm V → Prop) : ℕ → Tm V → Prop
  | 0, _ => True
  | k + 1, t => T t ∧ (t.Clean → CT x T k (t.der x))

structure TSys (x : Variable) (T : Tm V → Prop) : Prop where
  num : ∀ v : V, T (Tm.num v)
  var : ∀ y, T (Tm.var y)
  neg : ∀ a : Tm V, T (Tm.neg a)
  sub : ∀ a b : Tm V, T (Tm.sub a b)
  sin : ∀ a : Tm V, T (Tm.sin a)
  cos : ∀ a : Tm V, T (Tm.cos a)
  exp : ∀ a : Tm V, T (Tm.exp a)
  ln : ∀ a : Tm V, T (Tm.ln a)
  pow : ∀ a b : Tm V, T (Tm.pow a b)
  add : ∀ l r : Tm V, T l → T r →
    (l.Clean → r.Clean → T (Tm.div (Tm.add (Tm.div l r) (Tm.num one)) (Tm.div (Tm.num one) r))) → T (Tm.add l r)
  addNum : ∀ (l : Tm V) (v : V), T l → T (Tm.add l (Tm.num v))
  mul : ∀ l r : Tm V, T l → T r →
    (l.Clean → r.Clean → T (Tm.div r (Tm.div (Tm.num one) l)) ∧ T (Tm.div l (Tm.div (Tm.num one) r))) → T (Tm.mul l r)
  mulSelf : ∀ r : Tm V, T r → T (Tm.mul r r)
  numDiv : ∀ (v : V) (r : Tm V), ¬ isZ v → T r → T (Tm.div (Tm.num v) r)
  div : ∀ l r : Tm V, (∀ k, CT x T k l) → (∀ k, CT x T k r) → T (Tm.div l r)
  negDiv : ∀ a r : Tm V, T (Tm.div (Tm.neg a) r)
  subDiv : ∀ a b r : Tm V, T (Tm.div (Tm.sub a b) r)

/-- A stable tree whose `n`-th derivative is 0, unless one before it cannot be asked for; `T` holds for all of them. -/
def Fine (x : Variable) (T : Tm V → Prop) : ℕ → Tm V → Prop
  | 0, t => t.St ∧ T t ∧ (t.Clean → (D x t).Z)
  | n + 1, t => t.St ∧ T t ∧ (t.Clean → Fine x T n (D x t))

variable {x : Variable} {T : Tm V → Prop}

theorem Fine.st {n : ℕ} {t : Tm V} (h : Fine x T n t) : t.St := by cases n <;> exact h.1
theorem Fine.holds {n : ℕ} {t : Tm V} (h : Fine x T n t) : T t := by cases n <;> exact h.2.1

theorem CT.of {t : Tm V} (h : T t) (hd : t.Clean → ∀ k, CT x T k (t.der x)) : ∀ k, CT x T k t
  | 0 => trivial
  | k + 1 => ⟨h, fun hc => hd hc k⟩

section
variable (hT : TSys x T)
include hT

theorem fine_num (n : ℕ) (v : V) : Fine x T n (num v) := by
  induction n generalizing v with
  | zero => exact ⟨rfl, hT.num v, fun _ => Z_zero⟩
  | succ n ih => exact ⟨rfl, hT.num v, fun _ => ih _⟩
theorem fine_isNum (n : ℕ) {t : Tm V} (h : t.isNum) : Fine x T n t := by obtain ⟨v, rfl⟩ := h.eq; exact fine_num hT n v

omit hT in
theorem fine_unclean (n : ℕ) {t : Tm V} (h : t.St) (ht : T t) (hc : ¬ t.Clean) : Fine x T n t := by
  cases n <;> exact ⟨h, ht, fun h => absurd h hc⟩

theorem Fine.succ {n : ℕ} {t : Tm V} (h : Fine x T n t) : Fine x T (n + 1) t := by
  induction n generalizing t with
  | zero => exact ⟨h.st, h.holds, fun hc => fine_isNum hT 0 (h.2.2 hc).isNum⟩
  | succ n ih => exact ⟨h.st, h.holds, fun hc => ih (h.2.2 hc)⟩
theorem Fine.mono {n n' : ℕ} {t : Tm V} (h : Fine x T n t) (hn : n ≤ n') : Fine x T n' t := by
  induction hn with
  | refl => exact h
  | step _ ih => exact Fine.succ hT ih

theorem Fine.der {n : ℕ} {t : Tm V} (h : Fine x T n t) (hc : t.Clean) : Fine x T n (D x t) := by
  cases n with
  | zero => exact fine_isNum hT 0 (h.2.2 hc).isNum
  | succ n => exact Fine.succ hT (h.2.2 hc)

theorem Fine.ct {n : ℕ} {t : Tm V} (h : Fine x T n t) (k : ℕ) : CT x T k t := by
  induction k generalizing t with
  | zero => trivial
  | succ k ih =>
    refine ⟨h.holds, fun hc => ?_⟩
    rcases der_eq_D (x := x) h.st hc with e | ⟨B, W, e⟩
    · rw [e]; exact ih (Fine.der hT h hc)
    · rw [e]; exact CT.of (hT.negDiv B W) (fun h => h.1.elim) k

theorem fine_negDiv (n : ℕ) {B W : Tm V} (h : (B.neg.div W).St) : Fine x T n (B.neg.div W) :=
  fine_unclean n h (hT.negDiv B W) fun h => h.1.elim
theorem fine_subDiv (n : ℕ) {A B W : Tm V} (h : ((A.sub B).div W).St) : Fine x T n ((A.sub B).div W) :=
  fine_unclean n h (hT.subDiv A B W) fun h => h.1.elim

/-- A nonzero number over a square. -/
theorem fine_num_div_sq {v : V} (hv : ¬ isZ v) {r : Tm V} (hr : r.St) (hn : ¬ r.isNum) (ht : T r) (n : ℕ) :
    Fine x T (n + 1) ((num v).div (r.mul r)) := by
  have sq := st_sq hr hn
  refine ⟨st_div.2 ⟨rfl, sq, by simp, hv⟩, hT.numDiv v _ hv (hT.mulSelf _ ht), fun _ => ?_⟩
  rw [D_div (num_st v) sq, mulR_of (a := r.mul r) (b := r.mul r) (by simp) (by simp)]
  have h0 : (mulR (D x (num v)) (r.mul r)).Z := mulR_Z (.inl Z_zero)
  by_cases hz : (D x r).Z
  · have h1 : (mulR (num v) (D x (r.mul r))).Z := by
      refine mulR_Z (.inr ?_)
      rw [D_mul hr hr]
      have z1 : (mulR (D x r) r).Z := mulR_Z (.inl hz)
      rcases addR_Z_right (a := mulR (D x r) r) (mulR_Z (a := r) (.inr hz)) with e | ⟨-, e⟩
      · rw [e]; exact z1
      · exact e z1
    generalize mulR (D x (num v)) (r.mul r) = A at *
    generalize mulR (num v) (D x (r.mul r)) = B at *
    have h2 : (subR A B).Z := by
      rcases subR_Z_right (a := A) h1 with e | ⟨-, e⟩
      · rw [e]; exact h0
      · exact e h0
    have h3 := (divR_Z (b := (r.mul r).mul (r.mul r)) h2).isNum
    rw [h3.agg]; exact fine_isNum hT n h3
  · have h1 : D x (r.mul r) = (mulR (D x r) r).add (mulR r (D x r)) := by
      rw [D_mul hr hr]; exact addR_of (mulR_not_num' hn hz) (mulR_not_num hn hz)
    have hB := St.mulR (a := num v) rfl (D_st (x := x) sq)
    have hBn : ¬ (mulR (num v) (D x (r.mul r))).isNum := mulR_not_num' (by rw [h1]; simp) hv
    have hBg : ¬ (mulR (num v) (D x (r.mul r))).isNeg := fun h => by
      rcases mulR_isNeg h with ⟨-, h, -⟩ | ⟨-, h, -⟩
      · rw [h1] at h; simp at h
      · simp at h
    generalize mulR (D x (num v)) (r.mul r) = A at *
    generalize mulR (num v) (D x (r.mul r)) = B at *
    rw [subR_Z_left h0 hBn, divR_of (by simp)]
    have st : (B.neg.div ((r.mul r).mul (r.mul r))).St :=
      st_div.2 ⟨st_neg.2 ⟨hB, hBn, hBg⟩, st_sq sq (by simp), by simp, fun h => h.isNum⟩
    rw [st]; exact fine_negDiv hT n st

/-- `sin w / R²` for `R` like a cosine. -/
theorem fine_sin_div_sq {w R u : Tm V} (hw : w.St) (hw1 : (D x w).O) (hR : R.St) (hR1 : D x R = u.sin.neg) (ht : T R)
    (n : ℕ) : Fine x T (n + 1) (w.sin.div (R.mul R)) := by
  have hnR : ¬ R.isNum := not_num_of_D (x := x) (by rw [hR1]; exact id)
  have hnw : ¬ w.isNum := not_num_of_D (x := x) hw1.not_Z
  have sw : w.sin.St := st_sin.2 ⟨hw, by rcases sinR_cases w with ⟨h, -⟩ | ⟨h, -⟩; exact h; exact absurd h hnw⟩
  have cw : w.cos.St := st_cos.2 ⟨hw, sinR_iff_cosR.1 (st_sin.1 sw).2⟩
  have sq := st_sq hR hnR
  have dsin : D x w.sin = w.cos := by rw [D_sin sw]; exact mulR_O_right (by simp) hw1
  have dcos : D x w.cos = w.sin.neg := by rw [D_cos cw]; exact mulR_O_right (by simp) hw1
  have dsq : D x (R.mul R) = (mul u.sin.neg R).add (mul R u.sin.neg) := by
    rw [D_mul hR hR, hR1, mulR_of (by simp) hnR, mulR_of hnR (by simp), addR_of (by simp) (by simp)]
  have f1 : Fine x T 2 w.sin := ⟨sw, hT.sin _, fun _ => by
    rw [dsin]
    refine ⟨cw, hT.cos _, fun _ => ?_⟩
    rw [dcos]; exact fine_unclean 0 (st_negSin cw) (hT.neg _) id⟩
  have f2 : Fine x T 1 (R.mul R) := ⟨sq, hT.mulSelf _ ht, fun _ => by
    have s := D_st (x := x) sq
    rw [dsq] at s ⊢
    exact fine_unclean 0 s (hT.add _ _ (hT.mul _ _ (hT.neg _) ht fun h => h.elim)
      (hT.mul _ _ ht (hT.neg _) fun _ h => h.elim) fun h => h.1.elim) fun h => h.1.1⟩
  refine ⟨st_div.2 ⟨sw, sq, by simp, id⟩, hT.div _ _ (Fine.ct hT f1) (Fine.ct hT f2), fun _ => ?_⟩
  have s1 := (D_st (x := x) sw).mulR sq
  have s2 := sw.mulR (D_st (x := x) sq)
  rw [D_div sw sq]
  rw [dsin, mulR_of (by simp) (by simp)] at s1 ⊢
  rw [dsq, mulR_of (by simp) (by simp)] at s2 ⊢
  rw [subR_of id (by simp), divR_of (by simp), mulR_of (by simp) (by simp)]
  have st : (((w.cos.mul (R.mul R)).sub (w.sin.mul ((u.sin.neg.mul R).add (R.mul u.sin.neg)))).div
      ((R.mul R).mul (R.mul R))).St :=
    st_div.2 ⟨st_sub.2 ⟨s1, s2, by simp, id, id⟩, st_sq sq (by simp), by simp, id⟩
  rw [st]; exact fine_subDiv hT n st

/-- The derivative of a number over a fine tree. -/
theorem fine_der_numDiv {n : ℕ} {v : V} {j : Tm V} (hj : Fine x T n j) (hn : ¬ j.isNum) (hc : j.Clean) (N : ℕ) :
    Fine x T (N + 1) (D x ((num v).div j)) := by
  have h0 : (mulR (D x (num v)) j).Z := mulR_Z (.inl Z_zero)
  rw [D_div (num_st v) hj.st, mulR_of hn hn]
  have sq := st_sq hj.st hn
  have hBs := St.mulR (a := num v) rfl (D_st (x := x) hj.st)
  generalize mulR (D x (num v)) j = A at *
  by_cases hB : (mulR (num v) (D x j)).isNum
  · have : (subR A (mulR (num v) (D x j))).isNum := by
      obtain ⟨a, rfl⟩ := h0.isNum.eq
      obtain ⟨b, hb⟩ := hB.eq
      rw [hb]; trivial
    obtain ⟨u, hu⟩ := this.eq
    rw [hu]
    by_cases hz : isZ u
    · have h3 := (divR_Z (a := num u) (b := j.mul j) hz).isNum
      rw [h3.agg]; exact fine_isNum hT _ h3
    · have e : divR (num u) (j.mul j) = (num u).div (j.mul j) := by
        rcases divR_cases (num u) (j.mul j) with ⟨-, h, -⟩ | ⟨h, -⟩ | ⟨-, -, h⟩
        · simp at h
        · exact absurd h hz
        · exact h
      have f := fine_num_div_sq hT hz hj.st hn hj.holds N
      rw [e, f.st]; exact f
  · rw [subR_Z_left h0 hB, divR_of (by simp)]
    by_cases hg : (mulR (num v) (D x j)).isNeg
    · rcases mulR_isNeg hg with ⟨-, h2, h3⟩ | ⟨-, h2, -⟩
      · obtain ⟨w, e, hw, sw⟩ := cosL hj.st hc h2
        rw [h3, e]
        have f := fine_sin_div_sq hT sw hw hj.st e hj.holds N
        have : (w.sin.neg.neg.div (j.mul j)).agg = w.sin.div (j.mul j) := by
          show divR (negR (negR w.sin.agg)) (j.mul j).agg = _
          rw [sq, (st_div.1 f.st).1]; rfl
        rw [this]; exact f
      · simp at h2
    · have st : ((mulR (num v) (D x j)).neg.div (j.mul j)).St :=
        st_div.2 ⟨st_neg.2 ⟨hBs, hB, hg⟩, sq, by simp, id⟩
      rw [st]; exact fine_negDiv hT _ st

/-- The chain of `1 / r`. -/
theorem ct_inv {n : ℕ} {r : Tm V} (hr : Fine x T n r) : ∀ k, CT x T k ((num one).div r) := by
  have ho : ¬ isZ (one : V) := NumAlg.not_isZ _ NumAlg.isO_one
  by_cases hn : r.isNum
  · obtain ⟨v, rfl⟩ := hn.eq
    refine CT.of (hT.numDiv _ _ ho (hT.num v)) fun _ k => ?_
    have : (((num one).div (num v) : Tm V).der x).isNum := trivial
    exact Fine.ct hT (fine_isNum hT 0 this) k
  · have : Fine x T 2 ((num one).div r) := ⟨st_div.2 ⟨rfl, hr.st, fun h => hn h.2, ho⟩, hT.numDiv _ _ ho hr.holds,
      fun hc => fine_der_numDiv hT hr hn hc.2 0⟩
    exact Fine.ct hT this

theorem Fine.mulT {n m : ℕ} {a b : Tm V} (ha : Fine x T n a) (hb : Fine x T m b) : T (a.mul b) :=
  hT.mul _ _ ha.holds hb.holds fun _ _ =>
    ⟨hT.div _ _ (Fine.ct hT hb) (ct_inv hT ha), hT.div _ _ (Fine.ct hT ha) (ct_inv hT hb)⟩

theorem fine_addNum {n : ℕ} {a : Tm V} (ha : Fine x T n a) (hn : ¬ a.isNum) {v : V} (hv : ¬ isZ v) :
    Fine x T n (a.add (num v)) := by
  have st : (a.add (num v)).St := st_add.2 ⟨ha.st, rfl, fun h => hn h.1, fun h => hn h.isNum, hv⟩
  have key : D x (a.add (num v)) = D x a ∨ ((D x (a.add (num v))).isNum ∧ ((D x a).Z → (D x (a.add (num v))).Z)) := by
    rw [D_add ha.st (num_st v)]; exact addR_Z_right Z_zero
  cases n with
  | zero =>
    refine ⟨st, hT.addNum _ _ ha.holds, fun hc => ?_⟩
    rcases key with e | ⟨-, e⟩
    · rw [e]; exact ha.2.2 hc.1
    · exact e (ha.2.2 hc.1)
  | succ n =>
    refine ⟨st, hT.addNum _ _ ha.holds, fun hc => ?_⟩
    rcases key with e | ⟨e, -⟩
    · rw [e]; exact ha.2.2 hc.1
    · exact fine_isNum hT n e

theorem fine_mulConst {n : ℕ} {a c : Tm V} (ha : Fine x T n a) (hc : Fine x T 0 c) : Fine x T n (mulR a c) := by
  induction n generalizing a with
  | zero =>
    rcases mulR_cases a c with ⟨-, -, h, -⟩ | ⟨-, h⟩ | ⟨-, -, h⟩ | ⟨-, -, h⟩ | ⟨-, -, -, -, -, h⟩
    · exact fine_isNum hT _ h
    · rw [h]; exact fine_num hT _ _
    · rw [h]; exact hc
    · rw [h]; exact ha
    · have st := ha.st.mulR hc.st
      rw [h] at st ⊢
      refine ⟨st, Fine.mulT hT ha hc, fun hcl => ?_⟩
      rw [D_mul ha.st hc.st]
      have z1 : (mulR (D x a) c).Z := mulR_Z (.inl (ha.2.2 hcl.1))
      rcases addR_Z_right (a := mulR (D x a) c) (mulR_Z (a := a) (.inr (hc.2.2 hcl.2))) with e | ⟨-, e⟩
      · rw [e]; exact z1
      · exact e z1
  | succ n ih =>
    rcases mulR_cases a c with ⟨-, -, h, -⟩ | ⟨-, h⟩ | ⟨-, -, h⟩ | ⟨-, -, h⟩ | ⟨-, -, -, -, -, h⟩
    · exact fine_isNum hT _ h
    · rw [h]; exact fine_num hT _ _
    · rw [h]; exact Fine.mono hT hc (Nat.zero_le _)
    · rw [h]; exact ha
    · have st := ha.st.mulR hc.st
      rw [h] at st ⊢
      refine ⟨st, Fine.mulT hT ha hc, fun hcl => ?_⟩
      rw [D_mul ha.st hc.st]
      rcases addR_Z_right (a := mulR (D x a) c) (mulR_Z (a := a) (.inr (hc.2.2 hcl.2))) with e | ⟨e, -⟩
      · rw [e]; exact ih (ha.2.2 hcl.1)
      · exact fine_isNum hT _ e

theorem fine_divConst {n : ℕ} {a b : Tm V} (ha : Fine x T n a) (hb : Fine x T 0 b) : Fine x T n (divR a b) := by
  induction n generalizing a b with
  | zero =>
    rcases divR_cases a b with ⟨-, -, h, -⟩ | ⟨-, -, h⟩ | ⟨-, -, h⟩
    · exact fine_isNum hT _ h
    · rw [h]; exact fine_num hT _ _
    · have st := ha.st.divR hb.st
      rw [h] at st ⊢
      refine ⟨st, hT.div _ _ (Fine.ct hT ha) (Fine.ct hT hb), fun hcl => ?_⟩
      rw [D_div ha.st hb.st]
      have z1 : (mulR (D x a) b).Z := mulR_Z (.inl (ha.2.2 hcl.1))
      have z2 : (subR (mulR (D x a) b) (mulR a (D x b))).Z := by
        rcases subR_Z_right (a := mulR (D x a) b) (mulR_Z (a := a) (.inr (hb.2.2 hcl.2))) with e | ⟨-, e⟩
        · rw [e]; exact z1
        · exact e z1
      have z3 := divR_Z (b := mulR b b) z2
      rw [z3.isNum.agg]; exact z3
  | succ n ih =>
    rcases divR_cases a b with ⟨-, -, h, -⟩ | ⟨-, -, h⟩ | ⟨-, -, h⟩
    · exact fine_isNum hT _ h
    · rw [h]; exact fine_num hT _ _
    · have st := ha.st.divR hb.st
      rw [h] at st ⊢
      refine ⟨st, hT.div _ _ (Fine.ct hT ha) (Fine.ct hT hb), fun hcl => ?_⟩
      rw [D_div ha.st hb.st]
      have f : Fine x T n (subR (mulR (D x a) b) (mulR a (D x b))) := by
        rcases subR_Z_right (a := mulR (D x a) b) (mulR_Z (a := a) (.inr (hb.2.2 hcl.2))) with e | ⟨e, -⟩
        · rw [e]; exact fine_mulConst hT (ha.2.2 hcl.1) hb
        · exact fine_isNum hT _ e
      have f2 := ih f (fine_mulConst hT hb hb)
      rw [f2.st]; exact f2

theorem fine_div {n m : ℕ} {a b : Tm V} (ha : Fine x T n a) (hb : Fine x T m b) (st : (a.div b).St) :
    Fine x T (n + 2) (a.div b) := by
  refine ⟨st, hT.div _ _ (Fine.ct hT ha) (Fine.ct hT hb), fun hc => ?_⟩
  by_cases h0 : (D x b).Z
  · have f := fine_divConst hT ha (b := b) ⟨hb.st, hb.holds, fun _ => h0⟩
    have e : divR a b = a.div b := by
      obtain ⟨-, -, h1, h2⟩ := st_div.1 st
      rcases divR_cases a b with ⟨h, h', -⟩ | ⟨h, -⟩ | ⟨-, -, h⟩
      · exact absurd ⟨h, h'⟩ h1
      · exact absurd h h2
      · exact h
    rw [e] at f
    exact Fine.mono hT (Fine.der hT f hc) (by omega)
  have hnb := not_num_of_D h0
  by_cases hi : a.isNum
  · obtain ⟨v, rfl⟩ := hi.eq
    exact fine_der_numDiv hT hb hnb hc.2 n
  rw [D_div ha.st hb.st]
  have hB := mulR_not_num hi h0
  have hBs := ha.st.mulR (D_st (x := x) hb.st)
  have hAs := (D_st (x := x) ha.st).mulR hb.st
  have hW := hb.st.mulR hb.st
  have hg : ¬ (mulR a (D x b)).isNeg := by
    intro h
    rcases mulR_isNeg h with ⟨h, -⟩ | ⟨-, h, -⟩
    · exact hi h.isNum
    · exact hc.1.not_neg h
  generalize mulR a (D x b) = B at *
  generalize mulR (D x a) b = A at *
  by_cases hA : A.Z
  · rw [subR_Z_left hA hB, divR_of (by simp)]
    have st : (B.neg.div (mulR b b)).St := st_div.2 ⟨st_neg.2 ⟨hBs, hB, hg⟩, hW, by simp, id⟩
    rw [st]; exact fine_negDiv hT _ st
  · rw [subR_of hA hB, divR_of (by simp)]
    have st : ((A.sub B).div (mulR b b)).St :=
      st_div.2 ⟨st_sub.2 ⟨hAs, hBs, fun h => hB h.2, hA, fun h => hB h.isNum⟩, hW, by simp, id⟩
    rw [st]; exact fine_subDiv hT _ st

theorem Fine.addT {n m : ℕ} {a b : Tm V} (ha : Fine x T n a) (hb : Fine x T m b) (st : (a.add b).St) : T (a.add b) :=
  hT.add _ _ ha.holds hb.holds fun _ _ => by
    obtain ⟨-, -, h1, h2, -⟩ := st_add.1 st
    have f := fine_div hT ha hb (st_div.2 ⟨ha.st, hb.st, h1, h2⟩)
    exact hT.div _ _ (Fine.ct hT (fine_addNum hT f (by simp) (NumAlg.not_isZ _ NumAlg.isO_one))) (ct_inv hT hb)

theorem fine_add {n : ℕ} {a b : Tm V} (ha : Fine x T n a) (hb : Fine x T n b) : Fine x T n (addR a b) := by
  induction n generalizing a b with
  | zero =>
    rcases addR_cases a b with ⟨-, -, h, -⟩ | ⟨-, -, h⟩ | ⟨-, -, h⟩ | ⟨-, -, -, h⟩
    · exact fine_isNum hT _ h
    · rwa [h]
    · rwa [h]
    · have st := ha.st.addR hb.st
      rw [h] at st ⊢
      refine ⟨st, Fine.addT hT ha hb st, fun hc => ?_⟩
      rw [D_add ha.st hb.st]
      have z := ha.2.2 hc.1
      rcases addR_Z_right (a := D x a) (hb.2.2 hc.2) with e | ⟨-, e⟩
      · rw [e]; exact z
      · exact e z
  | succ n ih =>
    rcases addR_cases a b with ⟨-, -, h, -⟩ | ⟨-, -, h⟩ | ⟨-, -, h⟩ | ⟨-, -, -, h⟩
    · exact fine_isNum hT _ h
    · rwa [h]
    · rwa [h]
    · have st := ha.st.addR hb.st
      rw [h] at st ⊢
      refine ⟨st, Fine.addT hT ha hb st, fun hc => ?_⟩
      rw [D_add ha.st hb.st]
      exact ih (ha.2.2 hc.1) (hb.2.2 hc.2)

theorem fine_mul {N n m : ℕ} (hN : n + m = N) {a b : Tm V} (ha : Fine x T n a) (hb : Fine x T m b) :
    Fine x T N (mulR a b) := by
  induction N generalizing n m a b with
  | zero =>
    obtain ⟨rfl, rfl⟩ : n = 0 ∧ m = 0 := by omega
    exact fine_mulConst hT ha hb
  | succ N ih =>
    cases m with
    | zero =>
      obtain rfl : n = N + 1 := by omega
      exact fine_mulConst hT ha hb
    | succ m =>
      rcases mulR_cases a b with ⟨-, -, h, -⟩ | ⟨-, h⟩ | ⟨-, -, h⟩ | ⟨-, -, h⟩ | ⟨-, -, -, -, -, h⟩
      · exact fine_isNum hT _ h
      · rw [h]; exact fine_num hT _ _
      · rw [h]; exact Fine.mono hT hb (by omega)
      · rw [h]; exact Fine.mono hT ha (by omega)
      have st := ha.st.mulR hb.st
      rw [h] at st ⊢
      refine ⟨st, Fine.mulT hT ha hb, fun hc => ?_⟩
      rw [D_mul ha.st hb.st]
      have f2 := ih (by omega) ha (hb.2.2 hc.2)
      cases n with
      | zero =>
        rcases addR_Z_left (b := mulR a (D x b)) (mulR_Z (b := b) (.inl (ha.2.2 hc.1))) with e | ⟨e, -⟩
        · rw [e]; exact f2
        · exact fine_isNum hT _ e
      | succ n => exact fine_add hT (ih (by omega) (ha.2.2 hc.1) hb) f2

theorem fine_cos {n : ℕ} {u : Tm V} (st : u.cos.St) (hu : Fine x T n (D x u)) : Fine x T 1 u.cos := by
  refine ⟨st, hT.cos _, fun _ => ?_⟩
  rw [D_cos st]
  have s := st_negSin st
  rcases mulR_cases u.sin.neg (D x u) with ⟨-, -, h, -⟩ | ⟨-, h⟩ | ⟨h, -⟩ | ⟨-, -, h⟩ | ⟨-, -, -, -, -, h⟩
  · exact fine_isNum hT _ h
  · rw [h]; exact fine_num hT _ _
  · exact h.elim
  · rw [h]; exact fine_unclean 0 s (hT.neg _) id
  · have s2 := s.mulR hu.st
    rw [h] at s2 ⊢
    exact fine_unclean 0 s2 (hT.mul _ _ (hT.neg _) hu.holds fun h => h.elim) fun h => h.1

theorem fine_sin {n : ℕ} {u : Tm V} (st : u.sin.St) (hu : Fine x T n (D x u)) : Fine x T (n + 2) u.sin := by
  refine ⟨st, hT.sin _, fun _ => ?_⟩
  rw [D_sin st]
  obtain ⟨h, h'⟩ := st_sin.1 st
  exact fine_mul hT (by omega) (fine_cos hT (st_cos.2 ⟨h, sinR_iff_cosR.1 h'⟩) hu) hu

theorem fine_var (y : Variable) : Fine x T 1 (var y) := by
  refine ⟨rfl, hT.var y, fun _ => ?_⟩
  have : (D x (var y : Tm V)).isNum := by simp only [D, Tm.der]; split_ifs <;> trivial
  exact fine_isNum hT 0 this

/-- All stable trees are fine. -/
theorem fine_all (t : Tm V) (h : t.St) : ∃ n, Fine x T n t := by
  induction hl : t.lvl using Nat.strong_induction_on generalizing t with
  | _ H ih =>
    have low : ∀ u : Tm V, u.St → u.lvl < H → ∃ n, Fine x T n (D x u) := fun u hu hl' =>
      ih _ (lt_of_le_of_lt ((lvl_agg _).trans (lvl_der x u)) hl') _ (D_st hu) rfl
    replace hl : t.lvl ≤ H := hl.le
    induction t with
    | num v => exact ⟨0, fine_num hT 0 v⟩
    | var y => exact ⟨1, fine_var hT y⟩
    | neg a => exact ⟨0, fine_unclean 0 h (hT.neg _) id⟩
    | sub a b => exact ⟨0, fine_unclean 0 h (hT.sub _ _) id⟩
    | exp a => exact ⟨0, fine_unclean 0 h (hT.exp _) id⟩
    | ln a => exact ⟨0, fine_unclean 0 h (hT.ln _) id⟩
    | pow a b => exact ⟨0, fine_unclean 0 h (hT.pow _ _) id⟩
    | add a b i j =>
      obtain ⟨ha, hb, -⟩ := st_add.1 h
      obtain ⟨n, fa⟩ := i ha (by simp only [Tm.lvl] at hl; omega)
      obtain ⟨m, fb⟩ := j hb (by simp only [Tm.lvl] at hl; omega)
      have := fine_add hT (Fine.mono hT fa (le_max_left n m)) (Fine.mono hT fb (le_max_right n m))
      have e : addR a.agg b.agg = a.add b := h
      rw [ha, hb] at e
      rw [e] at this; exact ⟨_, this⟩
    | mul a b i j =>
      obtain ⟨ha, hb, -⟩ := st_mul.1 h
      obtain ⟨n, fa⟩ := i ha (by simp only [Tm.lvl] at hl; omega)
      obtain ⟨m, fb⟩ := j hb (by simp only [Tm.lvl] at hl; omega)
      have := fine_mul hT rfl fa fb
      have e : mulR a.agg b.agg = a.mul b := h
      rw [ha, hb] at e
      rw [e] at this; exact ⟨_, this⟩
    | div a b i j =>
      obtain ⟨ha, hb, -⟩ := st_div.1 h
      obtain ⟨n, fa⟩ := i ha (by simp only [Tm.lvl] at hl; omega)
      obtain ⟨m, fb⟩ := j hb (by simp only [Tm.lvl] at hl; omega)
      exact ⟨_, fine_div hT fa fb h⟩
    | sin u =>
      obtain ⟨n, f⟩ := low u (st_sin.1 h).1 (by simp only [Tm.lvl] at hl; omega)
      exact ⟨_, fine_sin hT h f⟩
    | cos u =>
      obtain ⟨n, f⟩ := low u (st_cos.1 h).1 (by simp only [Tm.lvl] at hl; omega)
      exact ⟨_, fine_cos hT h f⟩

/-! ### all trees -/

theorem ct_of_hd {t : Tm V} (h : t.Hd) (ht : T t) : ∀ k, CT x T k t := by
  refine CT.of ht fun hc k => ?_
  obtain ⟨n, f⟩ := fine_all hT t (h.st hc)
  exact (Fine.ct hT f (k + 1)).2 hc

theorem holds_of_hd {t : Tm V} (h : t.Hd) : T t := by
  have clean : ∀ {t : Tm V}, t.Hd → t.Clean → T t := fun {t} h hc => by
    obtain ⟨n, f⟩ := fine_all hT t (h.st hc)
    exact f.holds
  induction t with
  | num v => exact hT.num v
  | var y => exact hT.var y
  | neg a => exact hT.neg a
  | sub a b => exact hT.sub a b
  | sin a => exact hT.sin a
  | cos a => exact hT.cos a
  | exp a => exact hT.exp a
  | ln a => exact hT.ln a
  | pow a b => exact hT.pow a b
  | add a b i j =>
    by_cases hc : (a.add b).Clean
    · exact clean h hc
    · exact hT.add _ _ (i h.1) (j h.2.1) fun h1 h2 => absurd ⟨h1, h2⟩ hc
  | mul a b i j =>
    by_cases hc : (a.mul b).Clean
    · exact clean h hc
    · exact hT.mul _ _ (i h.1) (j h.2.1) fun h1 h2 => absurd ⟨h1, h2⟩ hc
  | div a b i j => exact hT.div _ _ (ct_of_hd hT h.1 (i h.1)) (ct_of_hd hT h.2.1 (j h.2.1))

/-- From the derivatives to the trees. -/
theorem holds_of_der {K : ℕ} (hd : ∀ t : Tm V, t.Ai K → ∀ k, CT x T k (t.der x)) {t : Tm V} (h : t.Ai K) : T t := by
  have ct : ∀ {t : Tm V}, t.Ai K → T t → ∀ k, CT x T k t := fun h ht => CT.of ht fun _ => hd _ h
  have ho : ¬ isZ (one : V) := NumAlg.not_isZ _ NumAlg.isO_one
  induction t with
  | num v => exact hT.num v
  | var y => exact hT.var y
  | neg a => exact hT.neg a
  | sub a b => exact hT.sub a b
  | sin a => exact hT.sin a
  | cos a => exact hT.cos a
  | exp a => exact hT.exp a
  | ln a => exact hT.ln a
  | pow a b => exact hT.pow a b
  | add a b i j =>
    have ha := i h.1; have hb := j h.2
    refine hT.add _ _ ha hb fun _ _ => hT.div _ _ (ct ⟨h, trivial⟩ (hT.addNum _ _ ?_)) (ct ⟨trivial, h.2⟩ (hT.numDiv _ _ ho hb))
    exact hT.div _ _ (ct h.1 ha) (ct h.2 hb)
  | mul a b i j =>
    have ha := i h.1; have hb := j h.2
    exact hT.mul _ _ ha hb fun _ _ => ⟨hT.div _ _ (ct h.2 hb) (ct ⟨trivial, h.1⟩ (hT.numDiv _ _ ho ha)),
      hT.div _ _ (ct h.1 ha) (ct ⟨trivial, h.2⟩ (hT.numDiv _ _ ho hb))⟩
  | div a b i j => exact hT.div _ _ (ct h.1 (i h.1)) (ct h.2 (j h.2))

theorem ct_der (K : ℕ) : ∀ t : Tm V, t.Ai K → ∀ k, CT x T k (t.der x) := by
  induction K with
  | zero => exact fun t h => ct_of_hd hT (Hd.der x h) (holds_of_hd hT (Hd.der x h))
  | succ K ih =>
    intro t h
    have h' : (t.der x).Ai K := h.der x
    exact CT.of (holds_of_der hT ih h') fun _ => ih _ h'

/-- `T` holds for all trees. -/
theorem holds_all (t : Tm V) : T t := by
  obtain ⟨K, h⟩ := exists_ai t
  exact holds_of_der hT (ct_der hT K) h

end
end SymRust.End
