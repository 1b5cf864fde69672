import Verif.IntFold.BitProps
/-!
# C15: folded comparisons, extrema, absolute value, width changes and result types
-/

namespace Verif.IntFold

/-! ## Comparisons and extrema -/

/-- Folding the equality tests. -/
theorem C15_equality (m : Mode) (w a b : Nat) (hw : w ≤ 6) :
    ReturnsBool (fold2 m .ieq w a b) (decide (a = b)) ∧
    ReturnsBool (fold2 m .ine w a b) (decide (a ≠ b)) := by
  constructor <;> (unfold ReturnsBool fold2; simp only [fold])
  · simp [cmpU, withPair, getLogWidth_nat hw, getPair, sameWidth, valueU, out1]
    by_cases h : a = b <;> simp [h]
  · simp only [cmpU, withPair, getLogWidth_nat hw, getPair, sameWidth, valueU, out1, andThen_ok]
    by_cases h : a = b <;> simp [h]

/-- Folding the unsigned order comparisons compares the unsigned readings. -/
theorem C15_compare_unsigned (m : Mode) (w a b : Nat) (hw : w ≤ 6) :
    ReturnsBool (fold2 m .ilt_u w a b) (decide (a < b)) ∧
    ReturnsBool (fold2 m .igt_u w a b) (decide (b < a)) ∧
    ReturnsBool (fold2 m .ile_u w a b) (decide (a ≤ b)) ∧
    ReturnsBool (fold2 m .ige_u w a b) (decide (b ≤ a)) := by
  refine ⟨?_, ?_, ?_, ?_⟩ <;> (unfold ReturnsBool fold2; simp only [fold]) <;>
    simp [cmpU, withPair, getLogWidth_nat hw, getPair, sameWidth, valueU, out1] <;>
    exact decide_eq_decide.mpr Iff.rfl

/-- Folding the signed order comparisons compares the two's-complement readings. -/
theorem C15_compare_signed (m : Mode) (w a b : Nat) (hw : w ≤ 6) (ha : a < card w)
    (hb : b < card w) :
    ReturnsBool (fold2 m .ilt_s w a b) (decide (signedOf w a < signedOf w b)) ∧
    ReturnsBool (fold2 m .igt_s w a b) (decide (signedOf w b < signedOf w a)) ∧
    ReturnsBool (fold2 m .ile_s w a b) (decide (signedOf w a ≤ signedOf w b)) ∧
    ReturnsBool (fold2 m .ige_s w a b) (decide (signedOf w b ≤ signedOf w a)) := by
  refine ⟨?_, ?_, ?_, ?_⟩ <;> (unfold ReturnsBool fold2; simp only [fold]) <;>
    simp [cmpS, withPair, getLogWidth_nat hw, getPair, sameWidth, valueS_eq m hw ha,
      valueS_eq m hw hb, out1]

/-- Folding the unsigned extrema. -/
theorem C15_extrema_unsigned (m : Mode) (w a b : Nat) (hw : w ≤ 6) (ha : a < card w)
    (hb : b < card w) :
    ReturnsInt (fold2 m .imax_u w a b) w (max a b) ∧
    ReturnsInt (fold2 m .imin_u w a b) w (min a b) := by
  constructor <;> (unfold ReturnsInt fold2; simp only [fold]) <;>
    exact binU_eq m _ hw rfl (by omega)

/-- Folding the signed extrema returns the constant whose signed reading is the extremum. -/
theorem C15_extrema_signed (m : Mode) (w a b : Nat) (hw : w ≤ 6) (ha : a < card w)
    (hb : b < card w) :
    (∃ v, ReturnsInt (fold2 m .imax_s w a b) w v ∧ v < card w ∧
      signedOf w v = max (signedOf w a) (signedOf w b)) ∧
    (∃ v, ReturnsInt (fold2 m .imin_s w a b) w v ∧ v < card w ∧
      signedOf w v = min (signedOf w a) (signedOf w b)) := by
  have ra := signedOf_range hw ha
  have rb := signedOf_range hw hb
  refine ⟨⟨encode w (max (signedOf w a) (signedOf w b)), ?_, encode_lt _ _,
      signedOf_encode hw (by omega) (by omega)⟩,
    ⟨encode w (min (signedOf w a) (signedOf w b)), ?_, encode_lt _ _,
      signedOf_encode hw (by omega) (by omega)⟩⟩
  · unfold ReturnsInt fold2; simp only [fold]
    exact binS_eq m _ hw ha hb (by omega) (by omega)
  · unfold ReturnsInt fold2; simp only [fold]
    exact binS_eq m _ hw ha hb (by omega) (by omega)

/-! ## Absolute value -/

/-- Folding `iabs` returns the absolute value of the signed reading, as an unsigned constant, except
for the least value `-2^(N-1)` of the widths below 64.
Missing: that value, on which folding panics (`C15_iabs_panics`). -/
theorem C15_iabs_partial (m : Mode) (w a : Nat) (hw : w ≤ 6) (ha : a < card w)
    (hx : w = 6 ∨ a ≠ half w) :
    ReturnsInt (fold1 m .iabs w a) w (signedOf w a).natAbs := by
  have hr := signedOf_range hw ha
  have hh := half_le hw
  have hce := card_eq hw
  unfold ReturnsInt fold1; simp only [fold]
  by_cases hmin : signedOf w a = -2 ^ 63
  · have hw6 : w = 6 := by
      by_contra hne
      have h5 : w ≤ 5 := by omega
      have : half w ≤ 2 ^ 31 := by unfold half; interval_cases w <;> norm_num
      omega
    subst hw6
    have hn := newU_eq m (w := 6) (v := 2 ^ 63) (by omega) (by norm_num)
    rw [if_pos (by unfold card; norm_num)] at hn
    have hv := valueS_eq m hw ha
    rw [hmin] at hv ⊢
    simp only [withOne, getLogWidth_nat hw, getSingle, hv, andThen_ok, if_true]
    rw [if_neg (by simp)]
    rw [hn]
    rfl
  · have hneg : signedOf w a ≠ -(half w : Int) := by
      intro he
      rcases hx with h | h
      · subst h; exact hmin (by rw [he]; rfl)
      · unfold signedOf at he; split at he <;> omega
    have hs := newS_eq m (z := ((signedOf w a).natAbs : Int)) hw (by omega) (by omega)
    rw [if_pos (by omega)] at hs
    have he : encode w ((signedOf w a).natAbs : Int) = (signedOf w a).natAbs := by
      unfold encode
      rw [Int.emod_eq_of_lt (by omega) (by omega)]; rfl
    rw [he] at hs
    simp only [withOne, getLogWidth_nat hw, getSingle, valueS_eq m hw ha, andThen_ok, if_true]
    rw [if_neg hmin, hs]
    rfl

/-- Folding `iabs` of the least value of any width below 64 panics. -/
theorem C15_iabs_panics (m : Mode) (w : Nat) (hw : w ≤ 5) :
    fold1 m .iabs w (half w) = .panic := by
  cases m <;> interval_cases w <;> rfl

/-! ## Width changes -/

theorem card_mono {w0 w1 : Nat} (h : w0 ≤ w1) : card w0 ≤ card w1 :=
  Nat.pow_le_pow_right (by omega) (Nat.pow_le_pow_right (by omega) h)

theorem half_mono {w0 w1 : Nat} (h : w0 ≤ w1) : half w0 ≤ half w1 := by
  have : 2 ^ w0 ≤ 2 ^ w1 := Nat.pow_le_pow_right (by omega) h
  exact Nat.pow_le_pow_right (by omega) (by omega)

/-- Folding `iwiden_u` keeps the unsigned value. -/
theorem C15_iwiden_u (m : Mode) (w0 w1 a : Nat) (h : w0 ≤ w1) (hw : w1 ≤ 6) (ha : a < card w0) :
    ReturnsInt (foldConv m .iwiden_u w0 w1 a) w1 a := by
  have h1 := lt_of_lt_of_le ha (card_mono h)
  have h2 := lt_of_lt_of_le h1 (card_le hw)
  have hn := newU_eq m hw h2
  rw [if_pos h1] at hn
  have h0 : ¬ w1 < w0 := by omega
  unfold ReturnsInt foldConv; simp only [fold]
  simp [withWiden, getLogWidth_nat hw, getLogWidth_nat (show w0 ≤ 6 by omega), getSingle, valueU,
    hn, out1, h0]

/-- Folding `iwiden_s` keeps the signed value. -/
theorem C15_iwiden_s (m : Mode) (w0 w1 a : Nat) (h : w0 ≤ w1) (hw : w1 ≤ 6) (ha : a < card w0) :
    ∃ v, ReturnsInt (foldConv m .iwiden_s w0 w1 a) w1 v ∧ v < card w1 ∧
      signedOf w1 v = signedOf w0 a := by
  have hw0 : w0 ≤ 6 := by omega
  have hr := signedOf_range hw0 ha
  have hm := half_mono h
  have hh := half_le hw
  have hs := newS_eq m (z := signedOf w0 a) hw (by omega) (by omega)
  rw [if_pos (by omega)] at hs
  refine ⟨_, ?_, encode_lt _ _, signedOf_encode hw (by omega) (by omega)⟩
  have h0 : ¬ w1 < w0 := by omega
  unfold ReturnsInt foldConv; simp only [fold]
  simp [withWiden, getLogWidth_nat hw, getLogWidth_nat hw0, getSingle, valueS_eq m hw0 ha, hs,
    out1, h0]

/-- Widening to a narrower type is never folded. -/
theorem C15_widen_declines (m : Mode) (w0 w1 a : Nat) (h : w1 < w0) :
    Declines (foldConv m .iwiden_u w0 w1 a) ∧ Declines (foldConv m .iwiden_s w0 w1 a) := by
  have key : ∀ x y, getLogWidth (.nat w0) = some x → getLogWidth (.nat w1) = some y →
      ¬ (x = w0 ∧ x ≤ y) := by
    intro x y hx hy ⟨h1, h2⟩
    obtain ⟨n0, e0, e0', _⟩ := getLogWidth_some hx
    obtain ⟨n1, e1, e1', _⟩ := getLogWidth_some hy
    cases e0; cases e1
    omega
  constructor <;>
  · unfold Declines foldConv
    simp only [fold]
    unfold withWiden
    simp only []
    cases hx : getLogWidth (.nat w0) with
    | none => simp
    | some x =>
      cases hy : getLogWidth (.nat w1) with
      | none => simp
      | some y =>
        simp only [getSingle]
        have := key x y hx hy
        have hc : x > y ∨ (⟨w0, a⟩ : ConstInt).logWidth ≠ x := by
          simp only
          omega
        rw [if_pos hc]

/-- Folding `inarrow_u` to fewer than 64 bits returns the value if it fits, and the narrowing error
exactly when it does not.
Missing: the target width 64, see `C15_narrow_u_refuted`. -/
theorem C15_inarrow_u_partial (m : Mode) (w0 w1 a : Nat) (h : w1 ≤ w0) (hw : w0 ≤ 6) (h6 : w1 ≤ 5)
    (ha : a < card w0) :
    foldConv m .inarrow_u w0 w1 a =
      .ok (some [(0, if a < card w1 then .okSum (.int w1) (.int ⟨w1, a⟩) else .err (.int w1))]) := by
  have h2 := lt_of_lt_of_le ha (card_le hw)
  have hn := newU_eq m (w := w1) (by omega) h2
  have hN : 2 ^ w1 < 64 := by interval_cases w1 <;> norm_num
  have hsh : a >>> 2 ^ w1 = 0 ↔ a < card w1 := by
    rw [Nat.shiftRight_eq_div_pow, Nat.div_eq_zero_iff_lt (Nat.two_pow_pos _)]; rfl
  unfold foldConv; simp only [fold]
  simp only [withWiden, getLogWidth_nat hw, getLogWidth_nat (show w1 ≤ 6 by omega), getSingle,
    valueU]
  rw [if_pos ⟨h, trivial⟩, shrU64, shiftAmount.eq_def, if_pos hN]
  simp only [andThen_ok, ne_eq, hsh]
  by_cases hc : a < card w1
  · rw [if_neg (by simpa using hc), hn, if_pos hc, if_pos hc]; rfl
  · rw [if_pos hc, if_neg hc]; rfl

/-- Folding `inarrow_s` to fewer than 64 bits: the same with the signed readings.
Missing: the target width 64, see `C15_narrow_s_refuted`. -/
theorem C15_inarrow_s_partial (m : Mode) (w0 w1 a : Nat) (h : w1 ≤ w0) (hw : w0 ≤ 6) (h6 : w1 ≤ 5)
    (ha : a < card w0) :
    (-(half w1 : Int) ≤ signedOf w0 a ∧ signedOf w0 a < half w1 →
      ∃ v, foldConv m .inarrow_s w0 w1 a =
          .ok (some [(0, .okSum (.int w1) (.int ⟨w1, v⟩))]) ∧
        v < card w1 ∧ signedOf w1 v = signedOf w0 a) ∧
    (¬ (-(half w1 : Int) ≤ signedOf w0 a ∧ signedOf w0 a < half w1) →
      foldConv m .inarrow_s w0 w1 a = .ok (some [(0, .err (.int w1))])) := by
  have hr := signedOf_range hw ha
  have hh := half_le hw
  have hh1 := half_le (show w1 ≤ 6 by omega)
  have hs := newS_eq m (w := w1) (z := signedOf w0 a) (by omega) (by omega) (by omega)
  have hone : oneShlI64 m (2 ^ w1 - 1) = .ok (half w1 : Int) := by
    unfold half
    interval_cases w1 <;> simp [oneShlI64, shlU64, shiftAmount, asI64, Nat.shiftLeft_eq]
  have hlt : half w1 < 2 ^ 63 := by unfold half; interval_cases w1 <;> norm_num
  have hi := i64_ok m (z := -(half w1 : Int)) (by omega) (by omega)
  have run : foldConv m .inarrow_s w0 w1 a =
      if signedOf w0 a ≥ half w1 then out1 (.ok (.err (.int w1)))
      else if signedOf w0 a < -(half w1 : Int) then out1 (.ok (.err (.int w1)))
      else out1 (mkOk (.int w1) (newS m w1 (signedOf w0 a))) := by
    unfold foldConv; simp only [fold]
    simp only [withWiden, getLogWidth_nat hw, getLogWidth_nat (show w1 ≤ 6 by omega), getSingle]
    rw [if_pos ⟨h, trivial⟩, valueS_eq m hw ha]
    simp only [andThen_ok, hone, hi]
  rw [run]
  constructor
  · intro hc
    refine ⟨encode w1 (signedOf w0 a), ?_, encode_lt _ _,
      signedOf_encode (by omega) hc.1 hc.2⟩
    rw [if_neg (by omega), if_neg (by omega), hs, if_pos hc]
    rfl
  · intro hc
    by_cases h1 : signedOf w0 a ≥ half w1
    · rw [if_pos h1]; rfl
    · rw [if_neg h1, if_pos (by omega)]; rfl

/-- Narrowing from 64 to 64 bits: a debug build panics on every value; a release build reports the
error for every value but 0, although every value fits. -/
theorem C15_narrow_u_refuted (a : Nat) :
    foldConv .debug .inarrow_u 6 6 a = .panic ∧
    (a ≠ 0 → foldConv .release .inarrow_u 6 6 a = .ok (some [(0, .err (.int 6))])) := by
  constructor
  · rfl
  · intro h
    unfold foldConv; simp only [fold]
    simp [withWiden, getLogWidth, isValidLogWidth, getSingle, valueU, shrU64, shiftAmount, h, out1]

/-- Signed narrowing from 64 to 64 bits always reports the error, although every value fits. -/
theorem C15_narrow_s_refuted (m : Mode) (a : Nat) (ha : a < card 6) :
    foldConv m .inarrow_s 6 6 a = .ok (some [(0, .err (.int 6))]) ∧
    -(half 6 : Int) ≤ signedOf 6 a ∧ signedOf 6 a < half 6 := by
  have hr := signedOf_range (w := 6) (by omega) ha
  refine ⟨?_, hr⟩
  have hh : (half 6 : Int) = 2 ^ 63 := by unfold half; norm_num
  unfold foldConv; simp only [fold]
  simp only [withWiden, getLogWidth_nat (show 6 ≤ 6 by omega), getSingle]
  rw [if_pos ⟨le_refl 6, trivial⟩, valueS_eq m (by omega) ha]
  have hone : oneShlI64 m (2 ^ 6 - 1) = .ok (-2 ^ 63) := by cases m <;> rfl
  simp only [andThen_ok, hone]
  rw [if_pos (by omega)]
  rfl

/-! ## Sign casts -/

/-- Folding the sign casts keeps the constant when both readings agree.
Missing: when they differ the fold aborts, see `C15_sign_cast_panics`. -/
theorem C15_sign_casts_partial (m : Mode) (w a : Nat) (hw : w ≤ 6) (ha : a < half w) :
    ReturnsInt (fold1 m .is_to_u w a) w a ∧ ReturnsInt (fold1 m .iu_to_s w a) w a ∧
    signedOf w a = a := by
  have hc := card_eq hw
  have hs : signedOf w a = a := by unfold signedOf; rw [if_pos ha]
  refine ⟨?_, ?_, hs⟩ <;> (unfold ReturnsInt fold1; simp only [fold]) <;>
    simp [withOne, getLogWidth_nat hw, getSingle, valueS_eq m hw (show a < card w by omega), hs,
      out1]

/-- Folding a sign cast of a constant with the top bit set aborts, in every build. -/
theorem C15_sign_cast_panics (m : Mode) (w a : Nat) (hw : w ≤ 6) (h : half w ≤ a)
    (ha : a < card w) :
    fold1 m .is_to_u w a = .panic ∧ fold1 m .iu_to_s w a = .panic := by
  have hneg : ¬ 0 ≤ signedOf w a := by
    unfold signedOf; rw [if_neg (by omega)]; omega
  constructor <;> (unfold fold1; simp only [fold]) <;>
    simp [withOne, getLogWidth_nat hw, getSingle, valueS_eq m hw ha, hneg]

example : ReturnsBool (fold2 .debug .ilt_s 3 255 1) true := rfl
example : ReturnsBool (fold2 .debug .ilt_u 3 255 1) false := rfl
example : ReturnsInt (fold2 .debug .imax_s 3 255 1) 3 1 := rfl
example : ReturnsInt (foldConv .debug .iwiden_s 3 4 255) 4 65535 := rfl
example : foldConv .debug .inarrow_s 4 3 65535 =
    .ok (some [(0, .okSum (.int 3) (.int ⟨3, 255⟩))]) := rfl
example : foldConv .debug .inarrow_u 4 3 256 = .ok (some [(0, .err (.int 3))]) := rfl
example : ReturnsInt (fold1 .debug .iabs 3 255) 3 1 := rfl

end Verif.IntFold
