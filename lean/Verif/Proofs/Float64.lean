import Verif.Spec.Float64
import Mathlib.Tactic
/-! # Packing and rounding of doubles -/

namespace SymRust.F64
open Float.Model Float.Model.UnpackedFloat

/-- Mantissa and exponent of a finite double (the exponent may still be too large). -/
structure Canon (m : ℕ) (e : ℤ) : Prop where
  pos : 0 < m
  lt : m < 2 ^ 53
  low : -1074 ≤ e
  norm : 2 ^ 52 ≤ m ∨ e = -1074

def Pre : UnpackedFloat → Prop
  | .finite _ m e _ => Canon m e
  | _ => True

def Good : UnpackedFloat → Prop
  | .finite _ m e _ => Canon m e ∧ e ≤ 971
  | _ => True

theorem toNat_one_append (mv : BitVec 52) : (1#1 ++ mv).toNat = 2 ^ 52 + mv.toNat := by
  rw [BitVec.toNat_append, ← Nat.shiftLeft_add_eq_or_of_lt mv.isLt]; simp [Nat.shiftLeft_eq]

/-- Unpacking by components. -/
def core (s : Sign) (ev : BitVec 11) (mv : BitVec 52) : UnpackedFloat :=
  if ev = -1#11 then if mv = 0#52 then .infinity s else .notANumber
  else if ev = 0#11 then
    if h : mv = 0#52 then .zero s
    else .finite s mv.toNat (-1074) (by simpa [BitVec.toNat_pos, BitVec.pos_iff_ne_zero])
  else .finite s (1#1 ++ mv).toNat (ev.toNat - 1075) (by rw [toNat_one_append]; omega)

theorem unpack_core (b : BitVec 64) : UnpackedFloat.unpack Format.binary64 b =
    core (Sign.ofBitVec (unpackSign (spec := Format.binary64) b)) (unpackExponent (spec := Format.binary64) b)
      (unpackMantissa (spec := Format.binary64) b) := by
  unfold UnpackedFloat.unpack core
  simp only []
  split_ifs with h1 h2 h3 h4
  · rfl
  · rfl
  · rfl
  · congr 1
    simp only [h3]; rfl
  · rfl

theorem good_core (s : Sign) (ev : BitVec 11) (mv : BitVec 52) : Good (core s ev mv) := by
  unfold core
  have hm := mv.isLt
  have he := ev.isLt
  split_ifs with h1 h2 h3 h4
  · trivial
  · trivial
  · trivial
  · have h0 : mv.toNat ≠ 0 := fun h => h4 (by apply BitVec.eq_of_toNat_eq; simpa using h)
    exact ⟨⟨by omega, by omega, by omega, .inr rfl⟩, by omega⟩
  · have h5 : ev.toNat ≠ 2047 := fun h => h1 (by apply BitVec.eq_of_toNat_eq; simpa using h)
    have h6 : ev.toNat ≠ 0 := fun h => h3 (by apply BitVec.eq_of_toNat_eq; simpa using h)
    show Canon (1#1 ++ mv).toNat _ ∧ _
    rw [toNat_one_append]
    exact ⟨⟨by omega, by omega, by omega, .inl (by omega)⟩, by omega⟩

theorem good_unpack (v : Float.Model) : Good v.unpack := by
  unfold Float.Model.unpack
  rw [unpack_core]
  exact good_core _ _ _

theorem ofBitVec_toBitVec (s : Sign) : Sign.ofBitVec s.toBitVec = s := by cases s <;> rfl

theorem unpackSign_packComponents {spec : Format} {sign exponent mantissa} :
    unpackSign (packComponents spec sign exponent mantissa) = sign.toBitVec := by
  ext i hi
  have : i = 0 := by omega
  subst this
  simp [unpackSign, packComponents, BitVec.getLsbD_eq_getElem, BitVec.getLsbD_append, BitVec.getElem_append]

theorem log2_lt {m n : ℕ} (h : m < 2 ^ n) (h0 : m ≠ 0) : m.log2 < n := (Nat.log2_lt h0).2 h

theorem unpack_packComponents (s : Sign) (ev : BitVec 11) (mv : BitVec 52) :
    UnpackedFloat.unpack Format.binary64 (packComponents Format.binary64 s ev mv) = core s ev mv := by
  rw [unpack_core, unpackSign_packComponents, ofBitVec_toBitVec]
  congr 1
  · exact unpackExponent_packComponents
  · exact unpackMantissa_packComponents

theorem pack_normal {s : Sign} {m : ℕ} {e : ℤ} {hm : 0 < m} (h1 : 2 ^ 52 ≤ m) (h2 : m < 2 ^ 53) (h3 : -1074 ≤ e) (h5 : e ≤ 971) :
    UnpackedFloat.pack Format.binary64 (.finite s m e hm) =
      packComponents Format.binary64 s (BitVec.ofNat 11 (e + 1075).toNat) (BitVec.ofNat 52 m) := by
  have hl : m.log2 < 53 := log2_lt h2 (by omega)
  have hl' : 52 ≤ m.log2 := (Nat.le_log2 (by omega)).2 h1
  have hk : (e + Format.binary64.exponentBias + Format.binary64.mantissaBitsWithoutImplicit).toNat = (e + 1075).toNat := by
    simp only [Format.exponentBias]; norm_num; rw [show e + 1023 + 52 = e + 1075 by ring]
  simp only [UnpackedFloat.pack]
  have hb : ¬ (2 ^ Format.binary64.exponentBits ≤ (e + Format.binary64.exponentBias + Format.binary64.mantissaBitsWithoutImplicit).toNat + 1) := by
    rw [hk]; norm_num; omega
  rw [if_neg hb, if_pos (by show m.log2 + 1 = 53; omega), hk]

theorem pack_subnormal {s : Sign} {m : ℕ} {hm : 0 < m} (h1 : m < 2 ^ 52) :
    UnpackedFloat.pack Format.binary64 (.finite s m (-1074) hm) =
      packComponents Format.binary64 s 0#11 (BitVec.ofNat 52 m) := by
  have hl : m.log2 < 52 := log2_lt h1 (by omega)
  have hk : ((-1074 : ℤ) + Format.binary64.exponentBias + Format.binary64.mantissaBitsWithoutImplicit).toNat = 1 := by decide
  simp only [UnpackedFloat.pack]
  have hb : ¬ (2 ^ Format.binary64.exponentBits ≤ ((-1074 : ℤ) + Format.binary64.exponentBias + Format.binary64.mantissaBitsWithoutImplicit).toNat + 1) := by
    rw [hk]; norm_num
  rw [if_neg hb, if_neg (by show ¬ m.log2 + 1 = 53; omega)]

theorem unpack_pack {f : UnpackedFloat} (h : Good f) : (Float.Model.pack f).unpack = f := by
  have key : (Float.Model.pack f).unpack = UnpackedFloat.unpack Format.binary64 (UnpackedFloat.pack Format.binary64 f) := rfl
  rw [key]
  cases f with
  | notANumber => rw [UnpackedFloat.pack, packedNaN, unpack_packComponents]; rfl
  | infinity s => rw [UnpackedFloat.pack, packedInfinity, unpack_packComponents]; rfl
  | zero s => rw [UnpackedFloat.pack, packedZero, unpack_packComponents]; rfl
  | finite s m e hm =>
    obtain ⟨⟨h1, h2, h3, h4⟩, h5⟩ := h
    by_cases hn : 2 ^ 52 ≤ m
    · rw [pack_normal hn h2 h3 h5, unpack_packComponents, core]
      have hbv : (BitVec.ofNat 11 (e + 1075).toNat).toNat = (e + 1075).toNat := by
        rw [BitVec.toNat_ofNat, Nat.mod_eq_of_lt (by omega)]
      rw [if_neg (fun h => by
        have := congrArg BitVec.toNat h
        rw [hbv] at this
        have h' : (-1#11 : BitVec 11).toNat = 2047 := by decide
        rw [h'] at this; omega)]
      rw [if_neg (fun h => by
        have := congrArg BitVec.toNat h
        rw [hbv] at this
        have h' : (0#11 : BitVec 11).toNat = 0 := by decide
        rw [h'] at this; omega)]
      congr 1
      · rw [toNat_one_append, BitVec.toNat_ofNat]; omega
      · rw [hbv]; omega
    · obtain rfl : e = -1074 := h4.resolve_left hn
      rw [pack_subnormal (by omega), unpack_packComponents, core]
      have hmv : (BitVec.ofNat 52 m).toNat = m := by
        rw [BitVec.toNat_ofNat, Nat.mod_eq_of_lt (by omega)]
      rw [if_neg (by decide), if_pos rfl, dif_neg (fun h => by
        have := congrArg BitVec.toNat h
        rw [hmv] at this
        have h' : (0#52 : BitVec 52).toNat = 0 := by decide
        rw [h'] at this; omega)]
      congr 1

end SymRust.F64
