import Verif.IntFold.Spec
import Mathlib.Tactic.IntervalCases
import Mathlib.Tactic.NormNum
/-! Helper lemmas on integer constants. -/

namespace Verif.IntFold

@[simp] theorem andThen_ok {α β : Type} (a : α) (f : α → Run β) : (Run.ok a).andThen f = f a := rfl
@[simp] theorem andThen_panic {α β : Type} (f : α → Run β) :
    (Run.panic : Run α).andThen f = .panic := rfl

theorem newU_eq (m : Mode) {w v : Nat} (hw : w ≤ 6) (hv : v < 2 ^ 64) :
    newU m w v = .ok (if v < card w then some ⟨w, v⟩ else none) := by
  unfold card
  interval_cases w <;>
    simp [newU, isValidLogWidth, oneShlU8, shlU64, shiftAmount, Nat.shiftLeft_eq] <;>
    (first | (split_ifs <;> first | rfl | omega) | omega)

theorem valueS_eq (m : Mode) {w v : Nat} (hw : w ≤ 6) (hv : v < card w) :
    valueS m ⟨w, v⟩ = .ok (signedOf w v) := by
  unfold card at hv
  interval_cases w <;>
    simp [valueS, oneShlU8, shlU64, shrU64, oneShlI64, shiftAmount, signedOf, card, half, i64, asI64,
      Nat.shiftLeft_eq, Nat.shiftRight_eq_div_pow] at hv ⊢ <;>
    (split_ifs <;> first | rfl | omega | (simp; omega))

theorem newS_eq (m : Mode) {w : Nat} {z : Int} (hw : w ≤ 6) (h1 : -2 ^ 63 ≤ z) (h2 : z < 2 ^ 63) :
    newS m w z = .ok (if -(half w : Int) ≤ z ∧ z < half w then some ⟨w, encode w z⟩ else none) := by
  unfold half encode card
  interval_cases w <;>
    simp [newS, isValidLogWidth, oneShlU8, shlU64, oneShlI64, shiftAmount, i64, asI64, asU64,
      Nat.shiftLeft_eq] at h1 h2 ⊢ <;>
    (first | (split_ifs <;> first | rfl | omega | (simp; omega)) | omega)

theorem card_pos (w : Nat) : 0 < card w := Nat.two_pow_pos _

theorem card_le {w : Nat} (hw : w ≤ 6) : card w ≤ 2 ^ 64 := by
  unfold card; interval_cases w <;> norm_num

theorem card_eq {w : Nat} (hw : w ≤ 6) : card w = 2 * half w := by
  unfold card half; interval_cases w <;> norm_num

theorem half_pos (w : Nat) : 0 < half w := Nat.two_pow_pos _

theorem half_le {w : Nat} (hw : w ≤ 6) : half w ≤ 2 ^ 63 := by
  have := card_le hw; rw [card_eq hw] at this; omega

theorem getLogWidth_nat {w : Nat} (hw : w ≤ 6) : getLogWidth (.nat w) = some w := by
  interval_cases w <;> rfl

theorem getLogWidth_some {t : TArg} {w : Nat} (h : getLogWidth t = some w) :
    ∃ n, t = .nat n ∧ n % 256 = w ∧ w ≤ 6 := by
  cases t with
  | other => cases h
  | nat n =>
    by_cases hc : n % 256 < 7
    · simp [getLogWidth, isValidLogWidth, hc] at h
      exact ⟨n, rfl, h, by omega⟩
    · simp [getLogWidth, isValidLogWidth, hc] at h

theorem bitmask_eq (m : Mode) {w : Nat} (hw : w ≤ 6) :
    bitmaskFromLogwidth m w = .ok (card w - 1) := by
  unfold card
  interval_cases w <;>
    simp [bitmaskFromLogwidth, bitmaskFromWidth, shlU64, shiftAmount, Nat.shiftLeft_eq]

theorem bitmaskW_eq (m : Mode) {w : Nat} (hw : w ≤ 6) :
    bitmaskFromWidth m (2 ^ w) = .ok (card w - 1) := by
  unfold card
  interval_cases w <;>
    simp [bitmaskFromWidth, shlU64, shiftAmount, Nat.shiftLeft_eq]

theorem masked_eq (m : Mode) {w : Nat} (x : Nat) (hw : w ≤ 6) :
    masked m w x = .ok (x % card w) := by
  unfold masked
  rw [bitmask_eq m hw, andThen_ok]
  unfold card
  rw [Nat.and_two_pow_sub_one_eq_mod]

theorem mod_mod_card {w : Nat} (x : Nat) (hw : w ≤ 6) : x % 2 ^ 64 % card w = x % card w := by
  apply Nat.mod_mod_of_dvd
  unfold card
  interval_cases w <;> norm_num

/-- What a two-input folder built on `new_u` computes on matching constants. -/
theorem binU_eq (m : Mode) {w a b v : Nat} (f : Nat → Nat → Nat → Run Nat) (hw : w ≤ 6)
    (hf : f w a b = .ok v) (hv : v < card w) :
    binU m [.nat w] [(0, .int ⟨w, a⟩), (1, .int ⟨w, b⟩)] f = .ok (some [(0, .int ⟨w, v⟩)]) := by
  have hv' : v < 2 ^ 64 := lt_of_lt_of_le hv (card_le hw)
  simp [binU, withPair, getLogWidth_nat hw, getPair, sameWidth, valueU, hf, newU_eq m hw hv', hv,
    unwrapInt, out1]

theorem unU_eq (m : Mode) {w a v : Nat} (f : Nat → Nat → Run Nat) (hw : w ≤ 6)
    (hf : f w a = .ok v) (hv : v < card w) :
    unU m [.nat w] [(0, .int ⟨w, a⟩)] f = .ok (some [(0, .int ⟨w, v⟩)]) := by
  have hv' : v < 2 ^ 64 := lt_of_lt_of_le hv (card_le hw)
  simp [unU, withOne, getLogWidth_nat hw, getSingle, valueU, hf, newU_eq m hw hv', hv, unwrapInt,
    out1]

theorem signedOf_range {w v : Nat} (hw : w ≤ 6) (hv : v < card w) :
    -(half w : Int) ≤ signedOf w v ∧ signedOf w v < half w := by
  have := card_eq hw
  unfold signedOf
  split <;> omega

theorem signedOf_emod {w v : Nat} (_hw : w ≤ 6) (hv : v < card w) :
    encode w (signedOf w v) = v := by
  have h : signedOf w v % (card w : Int) = v := by
    unfold signedOf
    split
    · exact Int.emod_eq_of_lt (by omega) (by omega)
    · rw [Int.sub_emod_right]
      exact Int.emod_eq_of_lt (by omega) (by omega)
  unfold encode
  rw [h]
  rfl

theorem encode_lt (w : Nat) (z : Int) : encode w z < card w := by
  have := card_pos w
  have h1 := Int.emod_nonneg z (b := (card w : Int)) (by omega)
  have h2 := Int.emod_lt_of_pos z (b := (card w : Int)) (by omega)
  unfold encode
  omega

theorem signedOf_encode {w : Nat} {z : Int} (hw : w ≤ 6) (h1 : -(half w : Int) ≤ z)
    (h2 : z < half w) : signedOf w (encode w z) = z := by
  have hc := card_eq hw
  have hp := half_pos w
  have : (z % (card w : Int)) = if 0 ≤ z then z else z + card w := by
    split
    · exact Int.emod_eq_of_lt (by omega) (by omega)
    · rw [← Int.add_emod_right]
      exact Int.emod_eq_of_lt (by omega) (by omega)
  unfold signedOf encode
  rw [this]
  split <;> split <;> omega

theorem binS_eq (m : Mode) {w a b : Nat} (f : Int → Int → Int) (hw : w ≤ 6)
    (ha : a < card w) (hb : b < card w)
    (h1 : -(half w : Int) ≤ f (signedOf w a) (signedOf w b))
    (h2 : f (signedOf w a) (signedOf w b) < half w) :
    binS m [.nat w] [(0, .int ⟨w, a⟩), (1, .int ⟨w, b⟩)] f =
      .ok (some [(0, .int ⟨w, encode w (f (signedOf w a) (signedOf w b))⟩)]) := by
  have hh := half_le hw
  have e := newS_eq m (z := f (signedOf w a) (signedOf w b)) hw (by omega) (by omega)
  rw [if_pos ⟨h1, h2⟩] at e
  simp [binS, withPair, getLogWidth_nat hw, getPair, sameWidth, valueS_eq m hw ha,
    valueS_eq m hw hb, e, unwrapInt, out1]

end Verif.IntFold
