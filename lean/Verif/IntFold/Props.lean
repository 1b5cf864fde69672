import Verif.IntFold.Lemmas
import Mathlib.Data.Nat.Bitwise
import Mathlib.Tactic.Ring
import Mathlib.Tactic.Linarith
/-!
# C11, C12: integer constants and modular arithmetic

`signedOf`, `encode`, `card`, `half` are in `Spec.lean`.
-/

namespace Verif.IntFold

/-! ## C11 -/

/-- `ConstInt::new_u(w, n)` succeeds exactly for `w ≤ 6` and `n < 2^N`, never panics, and the
constant then reads back as `n` (for every `u8` width and `u64` value). -/
theorem C11_new_u (m : Mode) (w n : Nat) (hn : n < 2 ^ 64) :
    (w ≤ 6 ∧ n < card w → ∃ c, newU m w n = .ok (some c) ∧ valueU c = n ∧ c.logWidth = w) ∧
    (¬ (w ≤ 6 ∧ n < card w) → newU m w n = .ok none) := by
  by_cases hw : w ≤ 6
  · rw [newU_eq m hw hn]
    refine ⟨fun h => ⟨⟨w, n⟩, by rw [if_pos h.2], rfl, rfl⟩, fun h => ?_⟩
    rw [if_neg (fun h' => h ⟨hw, h'⟩)]
  · refine ⟨fun h => absurd h.1 hw, fun _ => ?_⟩
    have : isValidLogWidth w = false := by simp [isValidLogWidth]; omega
    simp [newU, this]

/-- `ConstInt::new_s(w, n)` succeeds exactly for `w ≤ 6` and `-2^(N-1) ≤ n < 2^(N-1)`, never panics,
and the constant then reads back as `n` when read as signed (for every `u8` width and `i64` value). -/
theorem C11_new_s (m : Mode) (w : Nat) (n : Int) (h1 : -2 ^ 63 ≤ n) (h2 : n < 2 ^ 63) :
    (w ≤ 6 ∧ -(half w : Int) ≤ n ∧ n < half w →
      ∃ c, newS m w n = .ok (some c) ∧ valueS m c = .ok n ∧ c.logWidth = w ∧ c.Valid) ∧
    (¬ (w ≤ 6 ∧ -(half w : Int) ≤ n ∧ n < half w) → newS m w n = .ok none) := by
  by_cases hw : w ≤ 6
  · rw [newS_eq m hw h1 h2]
    refine ⟨fun h => ⟨⟨w, encode w n⟩, by rw [if_pos h.2], ?_, rfl, hw, encode_lt w n⟩,
      fun h => ?_⟩
    · rw [valueS_eq m hw (encode_lt w n), signedOf_encode hw h.2.1 h.2.2]
    · rw [if_neg (fun h' => h ⟨hw, h'⟩)]
  · refine ⟨fun h => absurd h.1 hw, fun _ => ?_⟩
    have : isValidLogWidth w = false := by simp [isValidLogWidth]; omega
    simp [newS, this]

/-- The signed reading of a constant is the two's-complement reading of its unsigned value. -/
theorem C11_two_complement (m : Mode) (c : ConstInt) (hc : c.Valid) :
    valueS m c = .ok (signedOf c.logWidth (valueU c)) ∧
    (valueU c : Int) = signedOf c.logWidth (valueU c) % card c.logWidth := by
  refine ⟨valueS_eq m hc.1 hc.2, ?_⟩
  have h := signedOf_emod hc.1 hc.2
  have hp := card_pos c.logWidth
  have h1 := Int.emod_nonneg (signedOf c.logWidth c.value) (b := (card c.logWidth : Int)) (by omega)
  unfold encode at h
  unfold valueU
  omega

/-- Re-encoding: building a constant from the signed reading of a constant gives it back. -/
theorem C11_reencode (m : Mode) (c : ConstInt) (hc : c.Valid) :
    ((valueS m c).andThen fun z => newS m c.logWidth z) = .ok (some c) ∧
    newU m c.logWidth (valueU c) = .ok (some c) := by
  obtain ⟨w, v⟩ := c
  obtain ⟨hw, hv⟩ := hc
  simp only at hw hv
  have hr := signedOf_range hw hv
  have hh := half_le hw
  have hv' := lt_of_lt_of_le hv (card_le hw)
  constructor
  · rw [valueS_eq m hw hv, andThen_ok]
    simp only
    rw [newS_eq m hw (by omega) (by omega), if_pos hr, signedOf_emod hw hv]
  · simp only [valueU]
    rw [newU_eq m hw hv', if_pos hv]

example : newS .debug 3 (-128) = .ok (some ⟨3, 128⟩) := by decide
example : newS .debug 3 128 = .ok none := by decide
example : newU .debug 5 (2 ^ 32) = .ok none := by decide
example : valueS .debug ⟨6, 2 ^ 63⟩ = .ok (-2 ^ 63) := by decide
example : (⟨5, 2 ^ 31⟩ : ConstInt).Valid := by unfold ConstInt.Valid card; decide

/-! ## C12 -/

/-- Folding `iadd` gives the sum modulo `2^N`. -/
theorem C12_iadd (m : Mode) (w a b : Nat) (hw : w ≤ 6) :
    ReturnsInt (fold2 m .iadd w a b) w ((a + b) % card w) := by
  unfold ReturnsInt fold2; simp only [fold]
  refine binU_eq m _ hw ?_ (Nat.mod_lt _ (card_pos w))
  rw [masked_eq m _ hw, wrapAdd, mod_mod_card _ hw]

/-- Folding `isub` gives the difference modulo `2^N`. -/
theorem C12_isub (m : Mode) (w a b : Nat) (hw : w ≤ 6) (hb : b < card w) :
    ReturnsInt (fold2 m .isub w a b) w (encode w ((a : Int) - b)) := by
  unfold ReturnsInt fold2; simp only [fold]
  refine binU_eq m _ hw ?_ (encode_lt w _)
  rw [masked_eq m _ hw, wrapSub, mod_mod_card _ hw]
  have hb' := lt_of_lt_of_le hb (card_le hw)
  have hd : ((card w : Nat) : Int) ∣ 2 ^ 64 := by
    unfold card; interval_cases w <;> norm_num
  have : ((a + (2 ^ 64 - b) : Nat) : Int) % card w = ((a : Int) - b) % card w := by
    have e : ((a + (2 ^ 64 - b) : Nat) : Int) = ((a : Int) - b) + 2 ^ 64 := by omega
    rw [e, Int.add_emod, Int.emod_eq_zero_of_dvd hd, Int.add_zero, Int.emod_emod]
  congr 1
  unfold encode
  rw [← this]
  omega

/-- Folding `ineg` gives the negation modulo `2^N`. -/
theorem C12_ineg (m : Mode) (w a : Nat) (hw : w ≤ 6) (ha : a < card w) :
    ReturnsInt (fold1 m .ineg w a) w (encode w (-(a : Int))) := by
  unfold ReturnsInt fold1; simp only [fold]
  refine unU_eq m _ hw ?_ (encode_lt w _)
  rw [masked_eq m _ hw, wrapNeg, mod_mod_card _ hw]
  have ha' := lt_of_lt_of_le ha (card_le hw)
  have hd : ((card w : Nat) : Int) ∣ 2 ^ 64 := by
    unfold card; interval_cases w <;> norm_num
  have : ((2 ^ 64 - a : Nat) : Int) % card w = (-(a : Int)) % card w := by
    have e : ((2 ^ 64 - a : Nat) : Int) = (-(a : Int)) + 2 ^ 64 := by omega
    rw [e, Int.add_emod, Int.emod_eq_zero_of_dvd hd, Int.add_zero, Int.emod_emod]
  congr 1
  unfold encode
  rw [← this]
  omega

/-- Folding `imul` gives the product modulo `2^N`. -/
theorem C12_imul (m : Mode) (w a b : Nat) (hw : w ≤ 6) :
    ReturnsInt (fold2 m .imul w a b) w ((a * b) % card w) := by
  unfold ReturnsInt fold2; simp only [fold]
  refine binU_eq m _ hw ?_ (Nat.mod_lt _ (card_pos w))
  rw [masked_eq m _ hw, wrapMul, mod_mod_card _ hw]

/-- Folding `ipow` gives the power modulo `2^N` when the exponent is below `2^32` (so always for
`N ≤ 32`). Missing: 64-bit exponents from `2^32` on, for which the code is wrong, see
`C12_ipow_refuted`. -/
theorem C12_ipow_partial (m : Mode) (w a b : Nat) (hw : w ≤ 6) (hb : b < 2 ^ 32) :
    ReturnsInt (fold2 m .ipow w a b) w (a ^ b % card w) := by
  unfold ReturnsInt fold2; simp only [fold]
  refine binU_eq m _ hw ?_ (Nat.mod_lt _ (card_pos w))
  rw [masked_eq m _ hw, wrapPow, mod_mod_card _ hw, clampU32, if_pos hb]

theorem C12_ipow_up_to_32_bits_partial (m : Mode) (w a b : Nat) (hw : w ≤ 5) (hb : b < card w) :
    ReturnsInt (fold2 m .ipow w a b) w (a ^ b % card w) := by
  refine C12_ipow_partial m w a b (by omega) (lt_of_lt_of_le hb ?_)
  unfold card; interval_cases w <;> norm_num

/-- `2^64 - 1` is its own inverse, so its even powers are 1 and its odd powers itself. -/
theorem pow_max (k : Nat) :
    (2 ^ 64 - 1) ^ (2 * k) % 2 ^ 64 = 1 ∧ (2 ^ 64 - 1) ^ (2 * k + 1) % 2 ^ 64 = 2 ^ 64 - 1 := by
  have h : (2 ^ 64 - 1) ^ (2 * k) % 2 ^ 64 = 1 := by
    rw [pow_mul, Nat.pow_mod]
    norm_num
  refine ⟨h, ?_⟩
  rw [pow_succ, Nat.mul_mod, h]
  norm_num

theorem ipow_large (m : Mode) (b c k : Nat) (hb : 2 ^ 32 ≤ b) (hk : b = 2 * k)
    (hc : c = 2 ^ 64) (hcc : card 6 = c) (j : Nat) (hj : 2 ^ 32 - 1 = 2 * j + 1) :
    fold2 m .ipow 6 (2 ^ 64 - 1) b = .ok (some [(0, .int ⟨6, 2 ^ 64 - 1⟩)]) ∧
    (2 ^ 64 - 1) ^ b % card 6 = 1 := by
  constructor
  · unfold fold2; simp only [fold]
    refine binU_eq m _ (w := 6) (v := 2 ^ 64 - 1) (by omega) ?_ (by omega)
    rw [masked_eq m _ (by omega), wrapPow, mod_mod_card _ (by omega), clampU32, if_neg (by omega),
      hcc, hj, hc, (pow_max j).2]
  · rw [hcc, hk, hc]
    exact (pow_max k).1

/-- The 64-bit power is wrong for large exponents: raising `2^64 - 1` (that is, -1) to the power
`2^32` is folded to `2^64 - 1`, while the power is 1 modulo `2^64`. -/
theorem C12_ipow_refuted (m : Mode) :
    ∃ a b v, a < card 6 ∧ b < card 6 ∧ ReturnsInt (fold2 m .ipow 6 a b) 6 v ∧
      v ≠ a ^ b % card 6 := by
  have hc : card 6 = 2 ^ 64 := by unfold card; norm_num
  have hlt : 2 ^ 32 < card 6 := by rw [hc]; norm_num
  have hlt' : 2 ^ 64 - 1 < card 6 := by rw [hc]; norm_num
  generalize hb : 2 ^ 32 = b at hlt
  have h := ipow_large m b (2 ^ 64) (2 ^ 31) (by omega) (by omega) rfl hc (2 ^ 31 - 1) (by norm_num)
  refine ⟨2 ^ 64 - 1, b, 2 ^ 64 - 1, hlt', hlt, h.1, ?_⟩
  rw [h.2]
  norm_num

/-- The same five results read as signed integers: folding is also right modulo `2^N` for the
two's-complement readings of the operands. -/
theorem C12_signed_reading (m : Mode) (w a b : Nat) (hw : w ≤ 6) (ha : a < card w)
    (hb : b < card w) :
    ReturnsInt (fold2 m .iadd w a b) w (encode w (signedOf w a + signedOf w b)) ∧
    ReturnsInt (fold2 m .isub w a b) w (encode w (signedOf w a - signedOf w b)) ∧
    ReturnsInt (fold2 m .imul w a b) w (encode w (signedOf w a * signedOf w b)) ∧
    ReturnsInt (fold1 m .ineg w a) w (encode w (-(signedOf w a))) := by
  have ra : (signedOf w a) % card w = a % card w := by
    unfold signedOf; split
    · rfl
    · exact Int.sub_emod_right _ _
  have rb : (signedOf w b) % card w = b % card w := by
    unfold signedOf; split
    · rfl
    · exact Int.sub_emod_right _ _
  refine ⟨?_, ?_, ?_, ?_⟩
  · have := C12_iadd m w a b hw
    have e : encode w (signedOf w a + signedOf w b) = (a + b) % card w := by
      unfold encode; rw [Int.add_emod, ra, rb, ← Int.add_emod, ← Int.natCast_add,
        ← Int.natCast_emod]; rfl
    rwa [e]
  · have := C12_isub m w a b hw hb
    have e : encode w (signedOf w a - signedOf w b) = encode w ((a : Int) - b) := by
      unfold encode; rw [Int.sub_emod, ra, rb, ← Int.sub_emod]
    rwa [e]
  · have := C12_imul m w a b hw
    have e : encode w (signedOf w a * signedOf w b) = (a * b) % card w := by
      unfold encode; rw [Int.mul_emod, ra, rb, ← Int.mul_emod, ← Int.natCast_mul,
        ← Int.natCast_emod]; rfl
    rwa [e]
  · have := C12_ineg m w a hw ha
    have e : encode w (-(signedOf w a)) = encode w (-(a : Int)) := by
      unfold encode
      have h := Int.sub_emod 0 (signedOf w a) (card w)
      rw [ra, ← Int.sub_emod, Int.zero_sub, Int.zero_sub] at h
      rw [h]
    rwa [e]

example : ReturnsInt (fold2 .debug .iadd 3 200 100) 3 44 := C12_iadd .debug 3 200 100 (by omega)
example : ReturnsInt (fold2 .debug .isub 3 3 5) 3 254 := by unfold ReturnsInt; rfl
example : ReturnsInt (fold1 .debug .ineg 6 1) 6 (2 ^ 64 - 1) := by unfold ReturnsInt; rfl
example : ReturnsInt (fold2 .debug .ipow 5 3 21) 5 (3 ^ 21 % 2 ^ 32) :=
  C12_ipow_partial .debug 5 3 21 (by omega) (by omega)

end Verif.IntFold
