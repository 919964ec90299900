import Verif.Proofs.Float64
/-! A double is determined by what it unpacks to; so negating twice gives the same bits. -/

namespace SymRust.F64
open Float.Model Float.Model.UnpackedFloat

theorem toBitVec_ofBitVec (b : BitVec 1) : (Sign.ofBitVec b).toBitVec = b := by
  unfold Sign.ofBitVec
  split_ifs with h
  · rw [h]; rfl
  · have : b = 1#1 := by
      apply BitVec.eq_of_toNat_eq
      have h1 := b.isLt
      have h2 : b.toNat ≠ 0 := fun h' => h (BitVec.eq_of_toNat_eq (by simpa using h'))
      simp only [BitVec.toNat_ofNat]; omega
    rw [this]; rfl

theorem components (b : BitVec 64) : packComponents Format.binary64 (Sign.ofBitVec (unpackSign (spec := Format.binary64) b))
    (unpackExponent (spec := Format.binary64) b) (unpackMantissa (spec := Format.binary64) b) = b := by
  unfold packComponents
  rw [toBitVec_ofBitVec]
  apply BitVec.eq_of_getLsbD_eq
  intro i hi
  have hi : i < 64 := hi
  simp only [unpackSign, unpackExponent, unpackMantissa, BitVec.getLsbD_append, BitVec.getLsbD_cast, BitVec.getLsbD_extractLsb]
  norm_num
  by_cases h1 : i < 52
  · simp [h1]
  · by_cases h2 : i < 63
    · have h3 : i - 52 < 11 := by omega
      have h5 : 52 + (i - 52) = i := by omega
      simp [h1, h3, h5]
    · have h3 : i = 63 := by omega
      subst h3
      simp
      exact BitVec.getLsbD_eq_getElem _

theorem pack_core (s : Sign) (ev : BitVec 11) (mv : BitVec 52) (h : ev = -1#11 → mv ≠ 0#52 → packComponents Format.binary64 s ev mv =
      packedNaN Format.binary64) :
    UnpackedFloat.pack Format.binary64 (core s ev mv) = packComponents Format.binary64 s ev mv := by
  unfold core
  split_ifs with h1 h2 h3 h4
  · rw [h1, h2]; rfl
  · exact (h h1 h2).symm
  · rw [h3, h4]; rfl
  · rw [pack_subnormal mv.isLt, h3, BitVec.ofNat_toNat]; rfl
  · have h5 : ev.toNat ≠ 2047 := fun h => h1 (by apply BitVec.eq_of_toNat_eq; simpa using h)
    have h6 : ev.toNat ≠ 0 := fun h => h3 (by apply BitVec.eq_of_toNat_eq; simpa using h)
    have h7 := ev.isLt
    have h8 := mv.isLt
    have h9 := toNat_one_append mv
    rw [pack_normal (by omega) (by omega) (by omega) (by omega)]
    congr 1
    · apply BitVec.eq_of_toNat_eq
      rw [BitVec.toNat_ofNat]
      have : ((ev.toNat : ℤ) - 1075 + 1075).toNat = ev.toNat := by omega
      rw [this]; exact Nat.mod_eq_of_lt (by omega)
    · apply BitVec.eq_of_toNat_eq
      rw [BitVec.toNat_ofNat, h9]
      show (2 ^ 52 + mv.toNat) % 2 ^ 52 = _
      rw [Nat.add_mod_left, Nat.mod_eq_of_lt (by omega)]

theorem pack_unpack (f : Float.Model) : Float.Model.pack f.unpack = f := by
  obtain ⟨b, hb⟩ := f
  have key : UnpackedFloat.pack Format.binary64 (UnpackedFloat.unpack Format.binary64 b.toBitVec) = b.toBitVec := by
    rw [unpack_core, pack_core, components]
    intro h1 h2
    rw [components]
    exact hb.eq_packedNaN h1 h2
  unfold Float.Model.pack Float.Model.unpack
  congr 1
  rw [key]

theorem unpack_injective {f g : Float.Model} (h : f.unpack = g.unpack) : f = g := by
  rw [← pack_unpack f, h, pack_unpack]

theorem neg_neg (f : Float.Model) : f.neg.neg = f := by
  have hg : Good f.unpack.neg := by
    have := good_unpack f
    cases hu : f.unpack <;> rw [hu] at this <;> exact this
  unfold Float.Model.neg
  rw [unpack_pack hg]
  have : f.unpack.neg.neg = f.unpack := by
    cases f.unpack with
    | notANumber => rfl
    | infinity s => cases s <;> rfl
    | zero s => cases s <;> rfl
    | finite s m e h => cases s <;> rfl
  rw [this, pack_unpack]

end SymRust.F64
