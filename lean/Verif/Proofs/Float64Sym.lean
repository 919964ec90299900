import Verif.Proofs.Float64Laws
/-! # Symmetries of the operations on doubles, and their text -/

namespace SymRust.F64
open Float.Model Float.Model.UnpackedFloat

theorem sign_mul_comm (s s' : Sign) : s * s' = s' * s := by cases s <;> cases s' <;> rfl

theorem unpacked_add_comm (a b : UnpackedFloat) : UnpackedFloat.add Format.binary64 a b = UnpackedFloat.add Format.binary64 b a := by
  cases a with
  | notANumber => cases b <;> simp [UnpackedFloat.add]
  | infinity s =>
    cases b with
    | infinity s' => cases s <;> cases s' <;> rfl
    | _ => simp [UnpackedFloat.add]
  | zero s =>
    cases b with
    | zero s' => cases s <;> cases s' <;> rfl
    | _ => simp [UnpackedFloat.add]
  | finite s m e hm =>
    cases b with
    | finite s' m' e' hm' =>
      simp only [UnpackedFloat.add]
      rw [min_comm e e', add_comm]
    | _ => simp [UnpackedFloat.add]

theorem unpacked_mul_comm (a b : UnpackedFloat) : UnpackedFloat.mul Format.binary64 a b = UnpackedFloat.mul Format.binary64 b a := by
  cases a <;> cases b <;> simp only [UnpackedFloat.mul, sign_mul_comm, mul_comm, add_comm]

theorem round_abs (s s' : Sign) (m : ℕ) (e : ℤ) :
    (UnpackedFloat.round Format.binary64 s m e).abs = (UnpackedFloat.round Format.binary64 s' m e).abs := by
  unfold UnpackedFloat.round roundWithAccuracy
  simp only []
  split_ifs <;> rfl

theorem normalize_abs_neg (M e : ℤ) (s : Sign) :
    (UnpackedFloat.normalize Format.binary64 M e s).abs = (UnpackedFloat.normalize Format.binary64 (-M) e s).abs := by
  unfold UnpackedFloat.normalize
  rcases lt_trichotomy M 0 with h | h | h
  · rw [compare_lt_iff_lt.2 h, compare_gt_iff_gt.2 (by omega : -M > 0)]
    exact round_abs _ _ _ _
  · subst h; rfl
  · rw [compare_gt_iff_gt.2 h, compare_lt_iff_lt.2 (by omega : -M < 0)]
    simp only [neg_neg]
    exact round_abs _ _ _ _

theorem unpacked_sub_abs (a b : UnpackedFloat) :
    (UnpackedFloat.sub Format.binary64 a b).abs = (UnpackedFloat.sub Format.binary64 b a).abs := by
  cases a with
  | notANumber => cases b <;> simp [UnpackedFloat.sub]
  | infinity s =>
    cases b with
    | infinity s' => cases s <;> cases s' <;> rfl
    | _ => simp [UnpackedFloat.sub, UnpackedFloat.abs]
  | zero s =>
    cases b with
    | zero s' => cases s <;> cases s' <;> rfl
    | _ => simp [UnpackedFloat.sub, UnpackedFloat.abs]
  | finite s m e hm =>
    cases b with
    | finite s' m' e' hm' =>
      simp only [UnpackedFloat.sub]
      rw [min_comm e e', normalize_abs_neg, neg_sub]
    | _ => simp [UnpackedFloat.sub, UnpackedFloat.abs]

theorem core_abs (s s' : Sign) (ev : BitVec 11) (mv : BitVec 52) : (core s ev mv).abs = (core s' ev mv).abs := by
  unfold core
  split_ifs <;> rfl

/-- Which components a finite float is packed into does not depend on the sign. -/
theorem pack_finite_abs (s s' : Sign) (m : ℕ) (e : ℤ) (hm : 0 < m) :
    (Float.Model.pack (.finite s m e hm)).unpack.abs = (Float.Model.pack (.finite s' m e hm)).unpack.abs := by
  have key : ∀ f, (Float.Model.pack f).unpack = UnpackedFloat.unpack Format.binary64 (UnpackedFloat.pack Format.binary64 f) :=
    fun _ => rfl
  rw [key, key]
  simp only [UnpackedFloat.pack, packedInfinity]
  split_ifs <;> rw [unpack_packComponents, unpack_packComponents] <;> exact core_abs _ _ _ _

theorem pack_abs {f g : UnpackedFloat} (h : f.abs = g.abs) :
    (Float.Model.pack f).unpack.abs = (Float.Model.pack g).unpack.abs := by
  cases f <;> cases g <;> simp only [UnpackedFloat.abs, reduceCtorEq, UnpackedFloat.finite.injEq] at h
  · rw [unpack_pack (f := .infinity _) trivial, unpack_pack (f := .infinity _) trivial]; rfl
  · rfl
  · rw [unpack_pack (f := .zero _) trivial, unpack_pack (f := .zero _) trivial]; rfl
  · obtain ⟨-, rfl, rfl⟩ := h
    exact pack_finite_abs _ _ _ _ _

theorem sub_abs (a b : Float.Model) : (a.sub b).abs = (b.sub a).abs := by
  unfold Float.Model.abs Float.Model.sub
  rw [pack_abs (unpacked_sub_abs _ _)]

theorem thousandths_near (m : ℕ) (e : ℤ) : |(thousandths m e : ℝ) - 1000 * (m * 2 ^ e)| ≤ 1 / 2 ∧
    (|(thousandths m e : ℝ) - 1000 * (m * 2 ^ e)| = 1 / 2 → thousandths m e % 2 = 0) := by
  unfold thousandths
  simp only []
  set num := m * 1000 * 2 ^ e.toNat with hnum
  set den := 2 ^ (-e).toNat with hden
  have hd : 0 < den := by positivity
  have hdr : (0 : ℝ) < den := by exact_mod_cast hd
  have hx : (1000 : ℝ) * (m * 2 ^ e) = num / den := by
    rw [eq_div_iff hdr.ne', hnum, hden]
    push_cast
    rcases le_total 0 e with h | h
    · have h1 : (-e).toNat = 0 := by omega
      have h2 : (2 : ℝ) ^ e = 2 ^ e.toNat := by rw [← zpow_natCast]; congr 1; omega
      rw [h1, h2]; ring
    · have h1 : e.toNat = 0 := by omega
      have h2 : (2 : ℝ) ^ e * 2 ^ (-e).toNat = 1 := by
        rw [← zpow_natCast, ← zpow_add₀ (by norm_num)]
        rw [show e + ((-e).toNat : ℤ) = 0 by omega, zpow_zero]
      rw [h1, mul_assoc, mul_assoc, h2]; ring
  have hn : (num : ℝ) = den * ((num / den : ℕ) : ℝ) + ((num % den : ℕ) : ℝ) := by exact_mod_cast (Nat.div_add_mod num den).symm
  have hq : (num : ℝ) / den = ((num / den : ℕ) : ℝ) + ((num % den : ℕ) : ℝ) / den := by
    rw [div_eq_iff hdr.ne', add_mul, div_mul_cancel₀ _ hdr.ne', mul_comm]; exact hn
  have hlt := Nat.mod_lt num hd
  rw [hx, hq]
  generalize num % den = r at *
  generalize num / den = q at *
  have h0 : (0 : ℝ) ≤ r / den := by positivity
  have h1 : (r : ℝ) / den < 1 := by rw [div_lt_one hdr]; exact_mod_cast hlt
  split_ifs with h h'
  · have h : (2 : ℝ) * r < den := by exact_mod_cast h
    have h2 : (r : ℝ) / den < 1 / 2 := by rw [div_lt_iff₀ hdr]; linarith
    have h3 : |(q : ℝ) - (q + r / den)| < 1 / 2 := by rw [abs_lt]; constructor <;> linarith
    exact ⟨h3.le, fun h => absurd h h3.ne⟩
  · have h' : (den : ℝ) < 2 * r := by exact_mod_cast h'
    have h2 : 1 / 2 < (r : ℝ) / den := by rw [lt_div_iff₀ hdr]; linarith
    have h3 : |((q + 1 : ℕ) : ℝ) - (q + r / den)| < 1 / 2 := by rw [abs_lt]; push_cast; constructor <;> linarith
    exact ⟨h3.le, fun h => absurd h h3.ne⟩
  · have h2 : 2 * r = den := by omega
    have h2 : (r : ℝ) / den = 1 / 2 := by
      rw [div_eq_iff hdr.ne']
      have : (2 : ℝ) * r = den := by exact_mod_cast h2
      linarith
    rw [h2]
    refine ⟨?_, fun _ => by omega⟩
    rcases Nat.mod_two_eq_zero_or_one q with h3 | h3 <;> rw [h3, abs_le] <;> push_cast <;> constructor <;> linarith

end SymRust.F64
