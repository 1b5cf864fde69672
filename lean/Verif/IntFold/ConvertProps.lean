import Verif.IntFold.ConvertLemmas
import Mathlib.Tactic.Common
/-!
# C66: folding conversions gives the value of the conversion

Constants of integer type are valid (`ConstInt.Valid`: the value fits the width), as the
constructors guarantee.
-/
namespace Verif.IntFold

variable {m : Mode}

/-- C66. Booleans and one-bit integers: `ifrombool` folds `true` to 1 and `false` to 0, `itobool`
folds 1 to `true` and 0 to `false`. -/
theorem C66_bool_int (p : Nat) (b : Bool) :
    ConvertOp.ifrombool.fold m [] [(p, .bool b)] = .ok (some [(0, .int ⟨0, b.toNat⟩)]) ∧
    ConvertOp.itobool.fold m [] [(p, .int ⟨0, b.toNat⟩)] = .ok (some [(0, .bool b)]) := by
  cases b <;> simp [ConvertOp.fold, newU_eq, card, cOut, singleInt, valueU]

/-- C66. `itobool` does not fold an integer of any width other than one bit. -/
theorem C66_bool_int_width (p : Nat) (c : ConstInt) (h : c.logWidth ≠ 0) :
    ConvertOp.itobool.fold m [] [(p, .int c)] = .ok none := by
  simp [ConvertOp.fold, singleInt, h]

/-- C66. `usize` and 64-bit integers: both conversions keep the number. -/
theorem C66_usize_int (p n : Nat) (hn : n < 2 ^ 64) :
    ConvertOp.ifromusize.fold m [] [(p, .usize n)] = .ok (some [(0, .int ⟨6, n⟩)]) ∧
    ConvertOp.itousize.fold m [] [(p, .int ⟨6, n⟩)] = .ok (some [(0, .usize n)]) := by
  have : n < card 6 := by simpa [card] using hn
  simp [ConvertOp.fold, newU_eq m (le_refl 6) hn, this, cOut, singleInt, valueU]

/-- C66. `itostring_u` and `itostring_s` fold to the decimal form of the unsigned and of the signed
(two's complement) reading of the constant. -/
theorem C66_strings (p w v : Nat) (hw : w ≤ 6) (hv : v < card w) :
    ConvertOp.itostring_u.fold m [.nat w] [(p, .int ⟨w, v⟩)] =
      .ok (some [(0, .str (toString v))]) ∧
    ConvertOp.itostring_s.fold m [.nat w] [(p, .int ⟨w, v⟩)] =
      .ok (some [(0, .str (toString (signedOf w v)))]) := by
  simp [ConvertOp.fold, getLogWidth_nat hw, singleInt, cOut, valueU, valueS_eq m hw hv]

/-- C66. Integers become the nearest `f64`, ties to even: `convert_u`. -/
theorem C66_convert_u (p w v : Nat) (args : List TArg) :
    ∃ r, IsRounded v r ∧ ConvertOp.convert_u.fold m args [(p, .int ⟨w, v⟩)] =
      .ok (some [(0, .float (.finite (r : Rat)))]) := by
  refine ⟨roundNat v, roundNat_spec v, ?_⟩
  have h : ¬ ((v : Int) < 0) := by omega
  simp [ConvertOp.fold, singleInt, cOut, valueU, roundInt, h]

/-- C66. Integers become the nearest `f64`, ties to even: `convert_s`, for which the rounding is
that of the absolute value. -/
theorem C66_convert_s (p w v : Nat) (args : List TArg) (hw : w ≤ 6) (hv : v < card w) :
    ∃ r, IsRounded (signedOf w v).natAbs r ∧
      ConvertOp.convert_s.fold m args [(p, .int ⟨w, v⟩)] =
        .ok (some [(0, .float (.finite
          (if signedOf w v < 0 then -(r : Rat) else (r : Rat))))]) := by
  refine ⟨roundNat (signedOf w v).natAbs, roundNat_spec _, ?_⟩
  simp only [ConvertOp.fold, singleInt, cOut, valueS_eq m hw hv, andThen_ok, roundInt]
  split_ifs <;> simp

/-- C66. `trunc_u` on a finite float whose integral part fits the width: success, with that
integral part. -/
theorem C66_trunc_u (p w : Nat) (q : Rat) (n : Nat) (hw : w ≤ 6) (hq : IsTrunc q n)
    (hn : n < card w) :
    ConvertOp.trunc_u.fold m [.nat w] [(p, .float (.finite q))] =
      .ok (some [(0, .okInt ⟨w, n⟩)]) := by
  have h64 := card_le hw
  have hs : satU64 (n : Int) = n := by unfold satU64; split_ifs <;> omega
  simp [ConvertOp.fold, foldTrunc, getLogWidth_nat hw, truncRat_eq hq, hs,
    newU_eq m hw (by omega : n < 2 ^ 64), hn, cOut]

/-- C66. `trunc_s` on a finite float whose integral part fits the width: success, with a constant
whose signed reading is that integral part. -/
theorem C66_trunc_s (p w : Nat) (q : Rat) (z : Int) (hw : w ≤ 6) (hq : IsTrunc q z)
    (h1 : -(half w : Int) ≤ z) (h2 : z < half w) :
    ConvertOp.trunc_s.fold m [.nat w] [(p, .float (.finite q))] =
      .ok (some [(0, .okInt ⟨w, encode w z⟩)]) := by
  have h63 := half_le hw
  have hs : satI64 z = z := by unfold satI64; split_ifs <;> omega
  simp [ConvertOp.fold, foldTrunc, getLogWidth_nat hw, truncRat_eq hq, hs,
    newS_eq m hw (by omega : -2 ^ 63 ≤ z) (by omega), h1, h2, cOut]

/-- C66. Truncating an infinity or NaN folds to the error value. -/
theorem C66_trunc_non_finite (p w : Nat) (hw : w ≤ 6) :
    ConvertOp.trunc_u.fold m [.nat w] [(p, .float .nonFinite)] = .ok (some [(0, .err w)]) ∧
    ConvertOp.trunc_s.fold m [.nat w] [(p, .float .nonFinite)] = .ok (some [(0, .err w)]) := by
  simp [ConvertOp.fold, foldTrunc, getLogWidth_nat hw, cOut]

/-- C66. For widths below 64 bits a finite float that is too large (for `trunc_s` also: too small)
folds to the error value. Missing: width 64 and negative numbers under `trunc_u`, for which this is
false (`C66_trunc_saturates_wrong`). -/
theorem C66_trunc_out_of_range_partial (p w : Nat) (q : Rat) (z : Int) (hw : w ≤ 5)
    (hq : IsTrunc q z) :
    ((card w : Int) ≤ z →
      ConvertOp.trunc_u.fold m [.nat w] [(p, .float (.finite q))] = .ok (some [(0, .err w)])) ∧
    (z < -(half w : Int) ∨ (half w : Int) ≤ z →
      ConvertOp.trunc_s.fold m [.nat w] [(p, .float (.finite q))] = .ok (some [(0, .err w)])) := by
  have hw6 : w ≤ 6 := by omega
  have hc : card w ≤ 2 ^ 32 := by unfold card; interval_cases w <;> norm_num
  have hh : half w ≤ 2 ^ 31 := by have := card_eq hw6; omega
  constructor
  · intro hz
    have hs : satU64 z < 2 ^ 64 ∧ ¬ satU64 z < card w := by unfold satU64; split_ifs <;> omega
    simp [ConvertOp.fold, foldTrunc, getLogWidth_nat hw6, truncRat_eq hq,
      newU_eq m hw6 hs.1, hs.2, cOut]
  · intro hz
    have hs : -2 ^ 63 ≤ satI64 z ∧ satI64 z < 2 ^ 63 ∧
        ¬ (-(half w : Int) ≤ satI64 z ∧ satI64 z < half w) := by
      unfold satI64; split_ifs <;> omega
    simp only [ConvertOp.fold, foldTrunc, getLogWidth_nat hw6, truncRat_eq hq,
      newS_eq m hw6 hs.1 hs.2.1, if_neg hs.2.2, cOut, andThen_ok]

/-- C66, finding. A finite number that does not fit saturates instead of folding to the error value:
every number at or below -1 truncates to an unsigned 0, and at 64 bits every number that is too
large or too small becomes the nearest bound. -/
theorem C66_trunc_saturates_wrong (p : Nat) (q : Rat) (z : Int) (hq : IsTrunc q z) :
    (∀ w, w ≤ 6 → z < 0 →
      ConvertOp.trunc_u.fold m [.nat w] [(p, .float (.finite q))] =
        .ok (some [(0, .okInt ⟨w, 0⟩)])) ∧
    (2 ^ 64 ≤ z →
      ConvertOp.trunc_u.fold m [.nat 6] [(p, .float (.finite q))] =
        .ok (some [(0, .okInt ⟨6, 2 ^ 64 - 1⟩)])) ∧
    (2 ^ 63 ≤ z →
      ConvertOp.trunc_s.fold m [.nat 6] [(p, .float (.finite q))] =
        .ok (some [(0, .okInt ⟨6, encode 6 (2 ^ 63 - 1)⟩)])) ∧
    (z < -2 ^ 63 →
      ConvertOp.trunc_s.fold m [.nat 6] [(p, .float (.finite q))] =
        .ok (some [(0, .okInt ⟨6, encode 6 (-2 ^ 63)⟩)])) := by
  refine ⟨fun w hw hz => ?_, fun hz => ?_, fun hz => ?_, fun hz => ?_⟩
  · have hs : satU64 z = 0 := by unfold satU64; rw [if_pos hz]
    simp [ConvertOp.fold, foldTrunc, getLogWidth_nat hw, truncRat_eq hq, hs,
      newU_eq m hw (by norm_num : 0 < 2 ^ 64), card_pos, cOut]
  · have hs : satU64 z = 2 ^ 64 - 1 := by unfold satU64; split_ifs <;> omega
    have hf : 2 ^ 64 - 1 < card 6 := by simp [card]
    simp only [ConvertOp.fold, foldTrunc, getLogWidth_nat (le_refl 6), truncRat_eq hq, hs,
      newU_eq m (le_refl 6) (by norm_num : 2 ^ 64 - 1 < 2 ^ 64), if_pos hf, cOut, andThen_ok]
  · have hs : satI64 z = 2 ^ 63 - 1 := by unfold satI64; split_ifs <;> omega
    have hf : -(half 6 : Int) ≤ 2 ^ 63 - 1 ∧ (2 ^ 63 - 1 : Int) < half 6 := by
      simp [half]
    simp only [ConvertOp.fold, foldTrunc, getLogWidth_nat (le_refl 6), truncRat_eq hq, hs,
      newS_eq m (le_refl 6) (by norm_num : (-2 ^ 63 : Int) ≤ 2 ^ 63 - 1) (by norm_num),
      if_pos hf, cOut, andThen_ok]
  · have hs : satI64 z = -2 ^ 63 := by unfold satI64; rw [if_pos hz]
    have hf : -(half 6 : Int) ≤ -2 ^ 63 ∧ (-2 ^ 63 : Int) < half 6 := by
      simp [half]
    simp only [ConvertOp.fold, foldTrunc, getLogWidth_nat (le_refl 6), truncRat_eq hq, hs,
      newS_eq m (le_refl 6) (by norm_num : (-2 ^ 63 : Int) ≤ -2 ^ 63) (by norm_num),
      if_pos hf, cOut, andThen_ok]

/-- C66. Converting to a float and truncating gives the integer back, for every unsigned integer up
to `2 ^ 53` (so for all widths below 64 bits). -/
theorem C66_convert_trunc (p p' w v : Nat) (hw : w ≤ 6) (hv : v < card w) (h53 : v ≤ 2 ^ 53) :
    ∃ f, ConvertOp.convert_u.fold m [.nat w] [(p, .int ⟨w, v⟩)] = .ok (some [(0, .float f)]) ∧
      ConvertOp.trunc_u.fold m [.nat w] [(p', .float f)] = .ok (some [(0, .okInt ⟨w, v⟩)]) := by
  obtain ⟨r, hr, h⟩ := C66_convert_u (m := m) p w v [.nat w]
  have := isRounded_exact (inF64_small h53) hr
  subst this
  refine ⟨_, h, C66_trunc_u p' w _ r hw ?_ hv⟩
  have := truncRat_spec (r : Rat)
  rwa [show truncRat (r : Rat) = (r : Int) from truncRat_int r] at this

/-- C66, finding. `ifrombool` folds every constant that is not the value `true` to 0, also one that
is not known to be `false` (a constant of boolean type such as an external symbol). -/
theorem C66_external_bool_wrong (p : Nat) :
    ConvertOp.ifrombool.fold m [] [(p, .other)] = .ok (some [(0, .int ⟨0, 0⟩)]) := by
  simp [ConvertOp.fold, newU_eq, card, cOut]

/-- C66. A conversion folds only with exactly one constant, of the type (and the width) that the operation
takes; otherwise nothing is folded. -/
theorem C66_folds_only (op : ConvertOp) (args : List TArg) (cs : List (Nat × CVal)) (outs : List (Nat × CVal))
    (h : op.fold m args cs = .ok (some outs)) : ∃ p v, cs = [(p, v)] ∧ Takes op args v := by
  have hint : ∀ {cs c}, singleInt cs = some c → ∃ p, cs = [(p, CVal.int c)] := by
    intro cs c h
    unfold singleInt at h
    split at h <;> cases h
    exact ⟨_, rfl⟩
  have hw : ∀ {arg w}, getLogWidth arg = some w → ∃ n, arg = .nat n ∧ n % 256 = w ∧ n % 256 ≤ 6 := by
    intro arg w h
    cases arg with
    | other => cases h
    | nat n =>
      simp only [getLogWidth] at h
      split at h
      · rename_i hv
        cases h
        exact ⟨n, rfl, rfl, by
          have : n % 256 < 7 := by simpa [isValidLogWidth] using hv
          omega⟩
      · cases h
  have htrunc : ∀ conv, foldTrunc args cs conv = .ok (some outs) →
      ∃ p v, cs = [(p, v)] ∧ ∃ n f, args = [TArg.nat n] ∧ n % 256 ≤ 6 ∧ v = CVal.float f := by
    intro conv h
    unfold foldTrunc at h
    split at h
    · split at h
      · split at h
        · cases h
        · rename_i hlw
          obtain ⟨n, rfl, _, h2⟩ := hw hlw
          exact ⟨_, _, rfl, n, _, rfl, h2, rfl⟩
      · cases h
    · cases h
  cases op with
  | trunc_u => simp only [ConvertOp.fold] at h; exact htrunc _ h
  | trunc_s => simp only [ConvertOp.fold] at h; exact htrunc _ h
  | convert_u =>
    simp only [ConvertOp.fold] at h
    split at h
    · cases h
    · rename_i c hc
      obtain ⟨p, rfl⟩ := hint hc
      exact ⟨p, _, rfl, c, rfl⟩
  | convert_s =>
    simp only [ConvertOp.fold] at h
    split at h
    · cases h
    · rename_i c hc
      obtain ⟨p, rfl⟩ := hint hc
      exact ⟨p, _, rfl, c, rfl⟩
  | itobool =>
    simp only [ConvertOp.fold] at h
    split at h
    · cases h
    · rename_i ha
      split at h
      · cases h
      · rename_i c hc
        split at h
        · cases h
        · rename_i hz
          obtain ⟨p, rfl⟩ := hint hc
          exact ⟨p, _, rfl, not_not.1 ha, c, rfl, not_not.1 hz⟩
  | ifrombool =>
    simp only [ConvertOp.fold] at h
    split at h
    · cases h
    · rename_i ha
      split at h
      · exact ⟨_, _, rfl, not_not.1 ha⟩
      · cases h
  | itostring_u =>
    simp only [ConvertOp.fold] at h
    split at h
    · split at h
      · rename_i w c hlw hc
        split at h
        · rename_i he
          obtain ⟨p, rfl⟩ := hint hc
          obtain ⟨n, rfl, h1, h2⟩ := hw hlw
          exact ⟨p, _, rfl, n, c, rfl, h2, rfl, by rw [he, h1]⟩
        · cases h
      · cases h
    · cases h
  | itostring_s =>
    simp only [ConvertOp.fold] at h
    split at h
    · split at h
      · rename_i w c hlw hc
        split at h
        · rename_i he
          obtain ⟨p, rfl⟩ := hint hc
          obtain ⟨n, rfl, h1, h2⟩ := hw hlw
          exact ⟨p, _, rfl, n, c, rfl, h2, rfl, by rw [he, h1]⟩
        · cases h
      · cases h
    · cases h
  | itousize =>
    simp only [ConvertOp.fold] at h
    split at h
    · cases h
    · rename_i ha
      split at h
      · cases h
      · rename_i c hc
        split at h
        · rename_i hz
          obtain ⟨p, rfl⟩ := hint hc
          exact ⟨p, _, rfl, not_not.1 ha, c, rfl, hz⟩
        · cases h
  | ifromusize =>
    simp only [ConvertOp.fold] at h
    split at h
    · cases h
    · rename_i ha
      split at h
      · exact ⟨_, _, rfl, not_not.1 ha, _, rfl⟩
      · cases h

/-! ## Concrete cases -/

example : IsTrunc (-3 / 2) (-1) := by unfold IsTrunc; norm_num
example : IsTrunc (7 / 2) 3 := by unfold IsTrunc; norm_num
example : ConvertOp.itostring_s.fold .release [.nat 3] [(0, .int ⟨3, 255⟩)] =
    .ok (some [(0, .str "-1")]) := by
  have := (C66_strings (m := .release) 0 3 255 (by decide) (by decide)).2
  rw [this]; rfl
example : ConvertOp.trunc_s.fold .release [.nat 3] [(0, .float (.finite (-3 / 2)))] =
    .ok (some [(0, .okInt ⟨3, 255⟩)]) :=
  C66_trunc_s 0 3 (-3 / 2) (-1) (by decide) (by unfold IsTrunc; norm_num) (by decide) (by decide)
/-- `2 ^ 53 + 1` is a tie: it rounds down to the even neighbour, `2 ^ 53 + 3` rounds up. -/
example : roundNat (2 ^ 53 + 1) = 2 ^ 53 ∧ roundNat (2 ^ 53 + 3) = 2 ^ 53 + 4 := by decide +kernel
example : ConvertOp.trunc_u.fold .release [.nat 5] [(0, .float (.finite (-3 / 2)))] =
    .ok (some [(0, .okInt ⟨5, 0⟩)]) :=
  (C66_trunc_saturates_wrong 0 (-3 / 2) (-1) (by unfold IsTrunc; norm_num)).1 5 (by decide)
    (by decide)

end Verif.IntFold
