import Verif.IntFold.DivProps
/-!
# C14: folded shifts, rotations and bitwise logic

Bits are numbered from 0 (least significant); `Nat.testBit v i` is bit `i` of `v`.
-/

namespace Verif.IntFold

/-! ## Bitwise logic -/

theorem testBit_high {w a i : Nat} (ha : a < card w) (hi : 2 ^ w ≤ i) : a.testBit i = false :=
  Nat.testBit_lt_two_pow (lt_of_lt_of_le ha (Nat.pow_le_pow_right (by omega) hi))

/-- Folding `iand`, `ior`, `ixor` acts bit by bit and the result has no bit beyond the width. -/
theorem C14_and_or_xor (m : Mode) (w a b : Nat) (hw : w ≤ 6) (ha : a < card w) (hb : b < card w) :
    (∃ v, ReturnsInt (fold2 m .iand w a b) w v ∧ v < card w ∧
      ∀ i, v.testBit i = (a.testBit i && b.testBit i)) ∧
    (∃ v, ReturnsInt (fold2 m .ior w a b) w v ∧ v < card w ∧
      ∀ i, v.testBit i = (a.testBit i || b.testBit i)) ∧
    (∃ v, ReturnsInt (fold2 m .ixor w a b) w v ∧ v < card w ∧
      ∀ i, v.testBit i = (a.testBit i ^^ b.testBit i)) := by
  refine ⟨⟨a &&& b, ?_, Nat.and_lt_two_pow a hb, fun i => Nat.testBit_and a b i⟩,
    ⟨a ||| b, ?_, Nat.or_lt_two_pow ha hb, fun i => Nat.testBit_or a b i⟩,
    ⟨a ^^^ b, ?_, Nat.xor_lt_two_pow ha hb, fun i => Nat.testBit_xor a b i⟩⟩
  · unfold ReturnsInt fold2; simp only [fold]
    exact binU_eq m _ hw rfl (Nat.and_lt_two_pow a hb)
  · unfold ReturnsInt fold2; simp only [fold]
    exact binU_eq m _ hw rfl (Nat.or_lt_two_pow ha hb)
  · unfold ReturnsInt fold2; simp only [fold]
    exact binU_eq m _ hw rfl (Nat.xor_lt_two_pow ha hb)

/-- Folding `inot` flips exactly the bits of the width. -/
theorem C14_inot (m : Mode) (w a : Nat) (hw : w ≤ 6) (ha : a < card w) :
    ∃ v, ReturnsInt (fold1 m .inot w a) w v ∧ v < card w ∧
      ∀ i, i < 2 ^ w → v.testBit i = !a.testBit i := by
  have ha' := lt_of_lt_of_le ha (card_le hw)
  have hN : 2 ^ w ≤ 64 := by interval_cases w <;> norm_num
  have hv : (card w - 1) &&& notU64 a = notU64 a % card w := by
    rw [Nat.and_comm]; exact Nat.and_two_pow_sub_one_eq_mod _ _
  refine ⟨notU64 a % card w, ?_, Nat.mod_lt _ (card_pos w), fun i hi => ?_⟩
  · unfold ReturnsInt fold1; simp only [fold]
    refine unU_eq m _ hw ?_ (Nat.mod_lt _ (card_pos w))
    rw [bitmask_eq m hw, andThen_ok, hv]
  · unfold card notU64
    rw [Nat.testBit_mod_two_pow]
    have e : 2 ^ 64 - 1 - a = 2 ^ 64 - (a + 1) := by omega
    rw [e, Nat.testBit_two_pow_sub_succ ha']
    have h64 : i < 64 := by omega
    simp [hi, h64]

/-! ## Shifts -/

/-- Folding `ishl` by `k < 64` multiplies by `2^k` and keeps the low `N` bits.
Missing: amounts from 64 on, see `C14_shift_refuted`. -/
theorem C14_ishl_partial (m : Mode) (w a k : Nat) (hw : w ≤ 6) (hk : k < 64) :
    ReturnsInt (fold2 m .ishl w a k) w (a * 2 ^ k % card w) := by
  unfold ReturnsInt fold2; simp only [fold]
  refine binU_eq m _ hw ?_ (Nat.mod_lt _ (card_pos w))
  rw [shlU64, shiftAmount.eq_def, if_pos hk, andThen_ok, andThen_ok, masked_eq m _ hw, Nat.shiftLeft_eq,
    mod_mod_card _ hw]

/-- Folding `ishr` by `k < 64` divides by `2^k`.
Missing: amounts from 64 on, see `C14_shift_refuted`. -/
theorem C14_ishr_partial (m : Mode) (w a k : Nat) (hw : w ≤ 6) (ha : a < card w) (hk : k < 64) :
    ReturnsInt (fold2 m .ishr w a k) w (a / 2 ^ k) := by
  unfold ReturnsInt fold2; simp only [fold]
  refine binU_eq m _ hw ?_ (lt_of_le_of_lt (Nat.div_le_self _ _) ha)
  rw [shrU64, shiftAmount.eq_def, if_pos hk, andThen_ok, Nat.shiftRight_eq_div_pow]

/-- A shift by `N` or more (but less than 64) gives 0. -/
theorem C14_shift_out_partial (m : Mode) (w a k : Nat) (hw : w ≤ 6) (ha : a < card w)
    (hk : k < 64) (hkN : 2 ^ w ≤ k) :
    ReturnsInt (fold2 m .ishl w a k) w 0 ∧ ReturnsInt (fold2 m .ishr w a k) w 0 := by
  have hdvd : card w ∣ 2 ^ k := Nat.pow_dvd_pow 2 hkN
  have h1 := C14_ishl_partial m w a k hw hk
  have h2 := C14_ishr_partial m w a k hw ha hk
  rw [Nat.mod_eq_zero_of_dvd (Dvd.dvd.mul_left hdvd a)] at h1
  rw [Nat.div_eq_of_lt (lt_of_lt_of_le ha (Nat.pow_le_pow_right (by omega) hkN))] at h2
  exact ⟨h1, h2⟩

/-- Shifting a constant by 64 or more is never folded right: a debug build panics, whatever the
operands. -/
theorem C14_shift_panics (w a k : Nat) (hw : w ≤ 6) (hk : 64 ≤ k) :
    fold2 .debug .ishl w a k = .panic ∧ fold2 .debug .ishr w a k = .panic := by
  have hk' : ¬ k < 64 := by omega
  constructor <;> (unfold fold2; simp only [fold]) <;>
  · simp [binU, withPair, getLogWidth_nat hw, getPair, sameWidth, valueU, shlU64, shrU64,
      shiftAmount, hk']

/-- ... and a release build shifts by the amount modulo 64: the 8-bit `1 << 64` is folded to 1 and
`1 >> 64` to 1, while both are 0. -/
theorem C14_shift_refuted :
    ReturnsInt (fold2 .release .ishl 3 1 64) 3 1 ∧ ReturnsInt (fold2 .release .ishr 3 1 64) 3 1 ∧
    1 * 2 ^ 64 % card 3 = 0 ∧ 1 / 2 ^ 64 = 0 ∧ 64 < card 3 := by
  refine ⟨rfl, rfl, by decide, by decide, by decide⟩

/-! ## Rotations -/

theorem width_le {w : Nat} (hw : w ≤ 6) : 2 ^ w ≤ 64 := by interval_cases w <;> norm_num

theorem rot_bits {N a k : Nat} (hk : k < N) (ha : a < 2 ^ N) (i : Nat) (hi : i < N) :
    ((a <<< k % 2 ^ N) ||| (a >>> (N - k))).testBit ((i + k) % N) = a.testBit i := by
  rw [Nat.testBit_or, Nat.testBit_mod_two_pow, Nat.testBit_shiftLeft, Nat.testBit_shiftRight]
  by_cases h : i + k < N
  · rw [Nat.mod_eq_of_lt h]
    have e1 : i + k - k = i := by omega
    have e2 : a.testBit (N - k + (i + k)) = false :=
      Nat.testBit_lt_two_pow (lt_of_lt_of_le ha (Nat.pow_le_pow_right (by omega) (by omega)))
    simp [h, e1, e2]
  · have e0 : (i + k) % N = i + k - N := by
      rw [Nat.mod_eq_sub_mod (by omega), Nat.mod_eq_of_lt (by omega)]
    have e1 : N - k + (i + k - N) = i := by omega
    rw [e0, e1]
    have e2 : ¬ k ≤ i + k - N := by omega
    simp [e2]

theorem rot_lt {N a k : Nat} (ha : a < 2 ^ N) :
    ((a <<< k % 2 ^ N) ||| (a >>> (N - k))) < 2 ^ N := by
  refine Nat.or_lt_two_pow (Nat.mod_lt _ (Nat.two_pow_pos _)) ?_
  rw [Nat.shiftRight_eq_div_pow]
  exact lt_of_le_of_lt (Nat.div_le_self _ _) ha

theorem card_dvd {w : Nat} (hw : w ≤ 6) : (2 : Nat) ^ 2 ^ w ∣ 2 ^ 64 :=
  Nat.pow_dvd_pow 2 (width_le hw)

/-- Folding `irotl` moves bit `i` to bit `i + k` modulo `N`, in either build profile, except that a
debug build panics on 64-bit rotations by a multiple of 64 (`C14_rotate_panics`). -/
theorem C14_irotl_partial (m : Mode) (w a k : Nat) (hw : w ≤ 6) (ha : a < card w)
    (hx : m = .release ∨ w ≠ 6 ∨ k % 64 ≠ 0) :
    ∃ v, ReturnsInt (fold2 m .irotl w a k) w v ∧ v < card w ∧
      ∀ i, i < 2 ^ w → v.testBit ((i + k) % 2 ^ w) = a.testBit i := by
  have hN : 0 < 2 ^ w := Nat.two_pow_pos w
  have hN' := width_le hw
  have hk : k % 2 ^ w < 2 ^ w := Nat.mod_lt _ hN
  generalize hkk : k % 2 ^ w = k' at hk
  have hres : (fun (w a b : Nat) =>
      let k := b % 2 ^ w
      (shlU64 m a k).andThen fun hi =>
      (bitmaskFromWidth m (2 ^ w)).andThen fun mask =>
      (shrU64 m a (2 ^ w - k)).andThen fun lo => Run.ok ((hi &&& mask) ||| lo)) w a k =
      .ok ((a <<< k' % 2 ^ 2 ^ w) ||| (a >>> (2 ^ w - k'))) := by
    simp only []
    rw [hkk, bitmaskW_eq m hw, shlU64, shiftAmount.eq_def, if_pos (by omega)]
    simp only [andThen_ok]
    unfold card
    rw [Nat.and_two_pow_sub_one_eq_mod, Nat.mod_mod_of_dvd _ (card_dvd hw)]
    rw [shrU64, shiftAmount.eq_def]
    by_cases h64 : 2 ^ w - k' < 64
    · rw [if_pos h64]; rfl
    · rw [if_neg h64]
      have h6 : 2 ^ w = 64 ∧ k' = 0 := by omega
      have hw6 : w = 6 := by
        by_contra hne
        have : 2 ^ w ≤ 2 ^ 5 := Nat.pow_le_pow_right (by omega) (by omega)
        omega
      subst hw6
      have hm : m = .release := by
        rcases hx with h | h | h
        · exact h
        · exact absurd rfl h
        · rw [show (64 : Nat) = 2 ^ 6 by norm_num, hkk] at h
          exact absurd h6.2 h
      subst hm
      rw [h6.2]
      have hlt : a < 2 ^ 64 := ha
      simp only [andThen_ok]
      norm_num
      norm_num at hlt
      rw [Nat.mod_eq_of_lt hlt, Nat.or_self]
      have : a >>> 64 = 0 := by rw [Nat.shiftRight_eq_div_pow]; exact Nat.div_eq_of_lt hlt
      rw [this]; simp
  have hlt := rot_lt (N := 2 ^ w) (k := k') (a := a) ha
  refine ⟨_, ?_, hlt, fun i hi => ?_⟩
  · unfold ReturnsInt fold2; simp only [fold]
    exact binU_eq m _ hw hres hlt
  · have := rot_bits hk ha i hi
    rw [← hkk, Nat.add_mod_mod] at this
    rw [← hkk]; exact this

/-- Folding `irotr` moves bit `i + k` modulo `N` to bit `i`, with the same exception. -/
theorem C14_irotr_partial (m : Mode) (w a k : Nat) (hw : w ≤ 6) (ha : a < card w)
    (hx : m = .release ∨ w ≠ 6 ∨ k % 64 ≠ 0) :
    ∃ v, ReturnsInt (fold2 m .irotr w a k) w v ∧ v < card w ∧
      ∀ i, i < 2 ^ w → v.testBit i = a.testBit ((i + k) % 2 ^ w) := by
  have hN : 0 < 2 ^ w := Nat.two_pow_pos w
  have hN' := width_le hw
  have hk : k % 2 ^ w < 2 ^ w := Nat.mod_lt _ hN
  generalize hkk : k % 2 ^ w = k' at hk
  have hres : (fun (w a b : Nat) =>
      let k := b % 2 ^ w
      (shlU64 m a (2 ^ w - k)).andThen fun hi =>
      (bitmaskFromWidth m (2 ^ w)).andThen fun mask =>
      (shrU64 m a k).andThen fun lo => Run.ok ((hi &&& mask) ||| lo)) w a k =
      .ok ((a <<< (2 ^ w - k') % 2 ^ 2 ^ w) ||| (a >>> k')) := by
    simp only []
    rw [hkk, bitmaskW_eq m hw, shrU64, shiftAmount.eq_def, if_pos (by omega)]
    simp only [andThen_ok]
    rw [shlU64, shiftAmount.eq_def]
    by_cases h64 : 2 ^ w - k' < 64
    · rw [if_pos h64]
      simp only [andThen_ok]
      unfold card
      rw [Nat.and_two_pow_sub_one_eq_mod, Nat.mod_mod_of_dvd _ (card_dvd hw)]
    · rw [if_neg h64]
      have h6 : 2 ^ w = 64 ∧ k' = 0 := by omega
      have hw6 : w = 6 := by
        by_contra hne
        have : 2 ^ w ≤ 2 ^ 5 := Nat.pow_le_pow_right (by omega) (by omega)
        omega
      subst hw6
      have hm : m = .release := by
        rcases hx with h | h | h
        · exact h
        · exact absurd rfl h
        · rw [show (64 : Nat) = 2 ^ 6 by norm_num, hkk] at h
          exact absurd h6.2 h
      subst hm
      rw [h6.2]
      have hlt : a < 2 ^ 64 := ha
      simp only [andThen_ok]
      unfold card
      rw [Nat.and_two_pow_sub_one_eq_mod, Nat.mod_mod_of_dvd _ (card_dvd (w := 6) (by omega))]
      norm_num
      norm_num at hlt
      rw [Nat.mod_eq_of_lt hlt, Nat.or_self]
      have : a <<< 64 % 2 ^ 64 = 0 := by
        rw [Nat.shiftLeft_eq, Nat.mul_mod_left]
      norm_num at this
      rw [this]; simp
  have hlt : ((a <<< (2 ^ w - k') % 2 ^ 2 ^ w) ||| (a >>> k')) < card w := by
    refine Nat.or_lt_two_pow (Nat.mod_lt _ (Nat.two_pow_pos _)) ?_
    rw [Nat.shiftRight_eq_div_pow]
    exact lt_of_le_of_lt (Nat.div_le_self _ _) ha
  refine ⟨_, ?_, hlt, fun i hi => ?_⟩
  · unfold ReturnsInt fold2; simp only [fold]
    exact binU_eq m _ hw hres hlt
  · rw [Nat.testBit_or, Nat.testBit_mod_two_pow, Nat.testBit_shiftLeft, Nat.testBit_shiftRight]
    have hmod : (i + k) % 2 ^ w = (i + k') % 2 ^ w := by rw [← hkk, Nat.add_mod_mod]
    rw [hmod]
    by_cases h : i + k' < 2 ^ w
    · rw [Nat.mod_eq_of_lt h]
      have e2 : ¬ 2 ^ w - k' ≤ i := by omega
      simp [e2, Nat.add_comm]
    · have e0 : (i + k') % 2 ^ w = i + k' - 2 ^ w := by
        rw [Nat.mod_eq_sub_mod (by omega), Nat.mod_eq_of_lt (by omega)]
      have e1 : i - (2 ^ w - k') = i + k' - 2 ^ w := by omega
      have e2 : 2 ^ w - k' ≤ i := by omega
      have e3 : a.testBit (k' + i) = false := testBit_high ha (by omega)
      rw [e0]
      simp [e1, e2, hi, e3]

/-- In a debug build rotating a 64-bit constant by a multiple of 64 panics. -/
theorem C14_rotate_panics (a k : Nat) (hk : k % 64 = 0) :
    fold2 .debug .irotl 6 a k = .panic ∧ fold2 .debug .irotr 6 a k = .panic := by
  constructor <;> (unfold fold2; simp only [fold]) <;>
  · simp [binU, withPair, getLogWidth, isValidLogWidth, getPair, sameWidth, valueU, shlU64, shrU64,
      shiftAmount, hk, bitmaskFromWidth]

example : ReturnsInt (fold2 .debug .irotl 3 0b10010110 3) 3 0b10110100 := rfl
example : ReturnsInt (fold2 .debug .irotr 3 0b10010110 3) 3 0b11010010 := rfl
example : ReturnsInt (fold2 .debug .ishl 2 0b1011 2) 2 0b1100 := rfl
example : ReturnsInt (fold1 .debug .inot 2 0b1011) 2 0b0100 := rfl
example : (0b10010110 : Nat) < card 3 := by decide

end Verif.IntFold
