import Verif.IntFold.Props
/-!
# C13: folded integer division

For a dividend `n` (read as unsigned or signed) and a divisor `d` (always read as unsigned), the
quotient `q` and remainder `r` are the unique integers with `q * d + r = n` and `0 ≤ r < d`.
-/

namespace Verif.IntFold

theorem asI64_small {n : Nat} (h : n < 2 ^ 63) : asI64 n = n := by
  unfold asI64; rw [if_pos h]

theorem asU64_nonneg {z : Int} (h0 : 0 ≤ z) (h : z < 2 ^ 64) : asU64 z = z.toNat := by
  unfold asU64; rw [Int.emod_eq_of_lt h0 h]

theorem i64_ok (m : Mode) {z : Int} (h1 : -2 ^ 63 ≤ z) (h2 : z < 2 ^ 63) : i64 m z = .ok z := by
  unfold i64; rw [if_pos ⟨h1, h2⟩]

theorem ediv_emod_of {n d q r : Int} (hd : 0 < d) (h : q * d + r = n) (h0 : 0 ≤ r) (h1 : r < d) :
    n / d = q ∧ n % d = r := by
  rw [Int.ediv_emod_unique hd]
  refine ⟨by rw [Int.mul_comm]; omega, h0, h1⟩

/-- `divmod_s` is Euclidean division except possibly for the dividend `i64::MIN`. -/
theorem divmodS_eq (m : Mode) {n : Int} {d : Nat} (h1 : -2 ^ 63 < n) (h2 : n < 2 ^ 63)
    (hd : 0 < d) (hd' : d < 2 ^ 64) : divmodS m n d = .ok (n / d, (n % d).toNat) := by
  unfold divmodS
  by_cases hn : n ≥ 0
  · rw [if_pos hn, asU64_nonneg hn (by omega)]
    obtain ⟨k, rfl⟩ := Int.eq_ofNat_of_zero_le hn
    have hk : k / d < 2 ^ 63 := lt_of_le_of_lt (Nat.div_le_self _ _) (by omega)
    simp only [Int.toNat_natCast]
    rw [asI64_small hk, ← Int.natCast_ediv, ← Int.natCast_emod, Int.toNat_natCast]
  · rw [if_neg hn, if_pos (by omega), i64_ok m (by omega) (by omega), andThen_ok,
      asU64_nonneg (by omega) (by omega)]
    obtain ⟨k, hk⟩ := Int.eq_ofNat_of_zero_le (a := -n) (by omega)
    have hq : k / d < 2 ^ 63 := lt_of_le_of_lt (Nat.div_le_self _ _) (by omega)
    rw [hk]
    simp only [Int.toNat_natCast]
    rw [asI64_small hq]
    have hdm : (k / d) * d + k % d = k := by rw [Nat.mul_comm]; exact Nat.div_add_mod k d
    have hr := Nat.mod_lt k hd
    generalize hqv : k / d = q at *
    generalize hrv : k % d = r at *
    rw [i64_ok m (z := -(q : Int)) (by omega) (by omega)]
    simp only [andThen_ok]
    have hdmz : (q : Int) * d + r = k := by exact_mod_cast hdm
    split
    · rename_i h0
      have := ediv_emod_of (n := n) (d := d) (q := -q) (r := 0) (by omega)
        (by rw [Int.neg_mul]; omega) (by omega) (by omega)
      rw [this.1, this.2]; rfl
    · rename_i h0
      have hq1 : q < 2 ^ 63 := hq
      rw [i64_ok m (by omega) (by omega), andThen_ok]
      have := ediv_emod_of (n := n) (d := d) (q := -q - 1) (r := d - r) (by omega)
        (by rw [Int.sub_mul, Int.neg_mul, Int.one_mul]; omega) (by omega) (by omega)
      rw [this.1, this.2]
      congr 2
      omega

/-- For `i64::MIN` and a divisor that divides `2^63` or is at least `2^63`, `divmod_s` is also
right. -/
theorem divmodS_min_ok (m : Mode) {d : Nat} (hd : 0 < d)
    (h : 2 ^ 63 % d = 0 ∨ 2 ^ 63 ≤ d) (hd' : d < 2 ^ 64) :
    divmodS m (-2 ^ 63) d = .ok ((-2 ^ 63) / (d : Int), ((-2 ^ 63) % (d : Int)).toNat) := by
  unfold divmodS
  rw [if_neg (by omega), if_neg (by simp)]
  by_cases h1 : d = 1
  · subst h1; rw [if_pos rfl]; simp
  rw [if_neg h1]
  by_cases h2 : d < 2 ^ 63
  · rw [if_pos h2]
    have h0 : 2 ^ 63 % d = 0 := by omega
    have hdvd : (d : Int) ∣ -2 ^ 63 := by
      rw [Int.dvd_neg]
      have : d ∣ 2 ^ 63 := Nat.dvd_of_mod_eq_zero h0
      exact_mod_cast this
    simp only []
    rw [asI64_small h2, Int.tmod_eq_zero_of_dvd hdvd, if_pos rfl, Int.emod_eq_zero_of_dvd hdvd,
      Int.tdiv_eq_ediv_of_dvd hdvd]
    rfl
  · rw [if_neg h2]
    have := ediv_emod_of (n := -2 ^ 63) (d := d) (q := -1) (r := d - 2 ^ 63) (by omega)
      (by omega) (by omega) (by omega)
    rw [this.1, this.2]
    have e : ((d : Int) - 2 ^ 63).toNat = d - 2 ^ 63 := by omega
    rw [e]

/-- In a release build the quotient of `divmod_s` is right for every dividend. -/
theorem divmodS_quotient {n : Int} {d : Nat} (h1 : -2 ^ 63 ≤ n) (h2 : n < 2 ^ 63)
    (hd : 0 < d) (hd' : d < 2 ^ 64) : ∃ r, divmodS .release n d = .ok (n / d, r) := by
  by_cases hm : n = -2 ^ 63
  · subst hm
    by_cases h : 2 ^ 63 % d = 0 ∨ 2 ^ 63 ≤ d
    · exact ⟨_, divmodS_min_ok .release hd h hd'⟩
    · have hne : 2 ^ 63 % d ≠ 0 := fun h' => h (Or.inl h')
      have hlt : d < 2 ^ 63 := by omega
      have hd1 : d ≠ 1 := by intro h'; subst h'; exact hne (Nat.mod_one _)
      unfold divmodS
      rw [if_neg (by omega), if_neg (by simp), if_neg hd1, if_pos hlt]
      simp only []
      rw [asI64_small hlt]
      have hmod : Int.tmod (-2 ^ 63) d = -((2 ^ 63 % d : Nat) : Int) := by
        rw [Int.neg_tmod]
        congr 1
      have hdiv : Int.tdiv (-2 ^ 63) d = -((2 ^ 63 / d : Nat) : Int) := by
        rw [Int.neg_tdiv]
        congr 1
      have hq : 2 ^ 63 / d ≤ 2 ^ 62 := by
        calc 2 ^ 63 / d ≤ 2 ^ 63 / 2 := Nat.div_le_div_left (by omega) (by omega)
          _ = 2 ^ 62 := by norm_num
      have hdm : (2 ^ 63 / d) * d + 2 ^ 63 % d = 2 ^ 63 := by
        rw [Nat.mul_comm]; exact Nat.div_add_mod _ d
      have hr := Nat.mod_lt (2 ^ 63) hd
      generalize 2 ^ 63 / d = q at *
      generalize 2 ^ 63 % d = r at *
      have hdmz : (q : Int) * d + r = 2 ^ 63 := by exact_mod_cast hdm
      rw [hmod, hdiv, if_neg (by omega), i64_ok _ (by omega) (by omega), andThen_ok]
      have := ediv_emod_of (n := -2 ^ 63) (d := d) (q := -q - 1) (r := d - r) (by omega)
        (by rw [Int.sub_mul, Int.neg_mul, Int.one_mul]; omega) (by omega) (by omega)
      rw [this.1]
      unfold i64
      split
      · exact ⟨_, rfl⟩
      · exact ⟨_, rfl⟩
  · exact ⟨_, divmodS_eq .release (by omega) h2 hd hd'⟩

/-! ## Unsigned division -/

/-- Folding `idivmod_u` with a non-zero divisor returns the Euclidean quotient and remainder. -/
theorem C13_idivmod_u (m : Mode) (w n d : Nat) (hw : w ≤ 6) (hn : n < card w) (hd : 0 < d)
    (hd' : d < card w) :
    ∃ q r, fold2 m .idivmod_u w n d = .ok (some [(0, .int ⟨w, q⟩), (1, .int ⟨w, r⟩)]) ∧
      q * d + r = n ∧ r < d ∧ q < card w ∧ r < card w := by
  have hq : n / d < card w := lt_of_le_of_lt (Nat.div_le_self _ _) hn
  have hr : n % d < card w := lt_trans (Nat.mod_lt _ hd) hd'
  have hc := card_le hw
  refine ⟨n / d, n % d, ?_, by rw [Nat.mul_comm]; exact Nat.div_add_mod n d, Nat.mod_lt _ hd, hq, hr⟩
  unfold fold2; simp only [fold]
  have hd0 : d ≠ 0 := by omega
  simp [withPair, getLogWidth_nat hw, getPair, valueU, newU_eq m hw (lt_of_lt_of_le hq hc), hq,
    newU_eq m hw (lt_of_lt_of_le hr hc), hr, unwrapInt, out2, hd0]

/-- Folding `idiv_u` and `imod_u` returns the quotient and the remainder. -/
theorem C13_idiv_u (m : Mode) (w n d : Nat) (hw : w ≤ 6) (hn : n < card w) (hd : 0 < d)
    (hd' : d < card w) :
    ReturnsInt (fold2 m .idiv_u w n d) w (n / d) ∧ ReturnsInt (fold2 m .imod_u w n d) w (n % d) := by
  have hq : n / d < card w := lt_of_le_of_lt (Nat.div_le_self _ _) hn
  have hr : n % d < card w := lt_trans (Nat.mod_lt _ hd) hd'
  have hc := card_le hw
  have hd0 : d ≠ 0 := by omega
  constructor
  · unfold ReturnsInt fold2; simp only [fold]
    simp [withPair, getLogWidth_nat hw, getPair, valueU, newU_eq m hw (lt_of_lt_of_le hq hc), hq,
      unwrapInt, out1, hd0]
  · unfold ReturnsInt fold2; simp only [fold]
    simp [withPair, getLogWidth_nat hw, getPair, valueU, newU_eq m hw (lt_of_lt_of_le hr hc), hr,
      unwrapInt, out1, hd0]

/-- The checked unsigned operations compute the same numbers (but see `C15_checked_types_refuted`
for the type of the result). -/
theorem C13_checked_u_partial (m : Mode) (w n d : Nat) (hw : w ≤ 6) (hn : n < card w) (hd : 0 < d)
    (hd' : d < card w) :
    fold2 m .idivmod_checked_u w n d =
      .ok (some [(0, .tuple [.int ⟨w, n / d⟩, .int ⟨w, n % d⟩])]) ∧
    ReturnsInt (fold2 m .idiv_checked_u w n d) w (n / d) ∧
    ReturnsInt (fold2 m .imod_checked_u w n d) w (n % d) := by
  have hq : n / d < card w := lt_of_le_of_lt (Nat.div_le_self _ _) hn
  have hr : n % d < card w := lt_trans (Nat.mod_lt _ hd) hd'
  have hc := card_le hw
  have hd0 : d ≠ 0 := by omega
  refine ⟨?_, ?_, ?_⟩ <;> try unfold ReturnsInt
  all_goals
    unfold fold2; simp only [fold]
    simp [withPair, getLogWidth_nat hw, getPair, sameWidth, valueU,
      newU_eq m hw (lt_of_lt_of_le hq hc), hq,
      newU_eq m hw (lt_of_lt_of_le hr hc), hr, unwrapInt, out1, hd0]

/-! ## Signed division -/

/-- Range facts on the results of Euclidean division of a `w`-wide signed by an unsigned. -/
theorem div_range {w n d : Nat} (hw : w ≤ 6) (hn : n < card w) (hd : 0 < d) (hd' : d < card w) :
    -(half w : Int) ≤ signedOf w n / d ∧ signedOf w n / d < half w ∧
    (signedOf w n % d).toNat < card w ∧ 0 ≤ signedOf w n % d ∧ signedOf w n % d < d := by
  obtain ⟨h1, h2⟩ := signedOf_range hw hn
  have hp := half_pos w
  have e0 := Int.emod_nonneg (signedOf w n) (b := (d : Int)) (by omega)
  have e1 := Int.emod_lt_of_pos (signedOf w n) (b := (d : Int)) (by omega)
  refine ⟨?_, ?_, by omega, e0, e1⟩
  · rw [Int.le_ediv_iff_mul_le (by omega)]
    nlinarith
  · rw [Int.ediv_lt_iff_lt_mul (by omega)]
    nlinarith

theorem min_of_signed {w n : Nat} (hw : w ≤ 6) (hn : n < card w)
    (hx : ¬ (w = 6 ∧ n = 2 ^ 63)) : -2 ^ 63 < signedOf w n := by
  unfold signedOf half card at *
  by_cases h6 : w = 6
  · subst h6; norm_num at *; split <;> omega
  · have : w ≤ 5 := by omega
    interval_cases w <;> norm_num at * <;> split <;> omega

theorem divmodS_right (m : Mode) {w n d : Nat} (hw : w ≤ 6) (hn : n < card w) (hd : 0 < d)
    (hd' : d < card w) (hx : ¬ (w = 6 ∧ n = 2 ^ 63) ∨ 2 ^ 63 % d = 0 ∨ 2 ^ 63 ≤ d) :
    divmodS m (signedOf w n) d = .ok (signedOf w n / d, (signedOf w n % d).toNat) := by
  have hc := card_le hw
  have hh := half_le hw
  have hr := signedOf_range hw hn
  by_cases h6 : w = 6 ∧ n = 2 ^ 63
  · obtain ⟨rfl, rfl⟩ := h6
    have e : signedOf 6 (2 ^ 63) = -2 ^ 63 := by decide
    rw [e]
    exact divmodS_min_ok m hd (by omega) (lt_of_lt_of_le hd' hc)
  · exact divmodS_eq m (min_of_signed hw hn h6) (by omega) hd (lt_of_lt_of_le hd' hc)

/-- Folding `idivmod_s` returns the Euclidean quotient and remainder of the signed dividend by the
unsigned divisor, for every dividend except `-2^63` at 64 bits, and for that one when the divisor
divides `2^63` or is at least `2^63`.
Missing: the dividend `-2^63` with every other divisor, for which the result is always wrong
(`C13_min_always_wrong`, `C13_min_remainder_refuted`, `C13_min_panics`). -/
theorem C13_idivmod_s_partial (m : Mode) (w n d : Nat) (hw : w ≤ 6) (hn : n < card w) (hd : 0 < d)
    (hd' : d < card w) (hx : ¬ (w = 6 ∧ n = 2 ^ 63) ∨ 2 ^ 63 % d = 0 ∨ 2 ^ 63 ≤ d) :
    ∃ q r, fold2 m .idivmod_s w n d = .ok (some [(0, .int ⟨w, q⟩), (1, .int ⟨w, r⟩)]) ∧
      signedOf w q * d + r = signedOf w n ∧ r < d ∧ q < card w ∧ r < card w := by
  obtain ⟨h1, h2, h3, h4, h5⟩ := div_range hw hn hd hd'
  have hc := card_le hw
  have hh := half_le hw
  have hr := signedOf_range hw hn
  refine ⟨encode w (signedOf w n / d), (signedOf w n % d).toNat, ?_, ?_, by omega,
    encode_lt _ _, h3⟩
  · have hs := newS_eq m (z := signedOf w n / d) hw (by omega) (by omega)
    rw [if_pos ⟨h1, h2⟩] at hs
    have hd0 : d ≠ 0 := by omega
    unfold fold2; simp only [fold]
    simp [withPair, getLogWidth_nat hw, getPair, valueU, valueS_eq m hw hn,
      divmodS_right m hw hn hd hd' hx, hs,
      newU_eq m hw (lt_of_lt_of_le h3 hc), h3, unwrapInt, out2, hd0]
  · rw [signedOf_encode hw h1 h2]
    have := Int.mul_ediv_add_emod (signedOf w n) d
    rw [Int.mul_comm] at this
    omega

/-- Folding `idiv_s` and `imod_s`: same restriction as `C13_idivmod_s_partial`. -/
theorem C13_idiv_s_partial (m : Mode) (w n d : Nat) (hw : w ≤ 6) (hn : n < card w) (hd : 0 < d)
    (hd' : d < card w) (hx : ¬ (w = 6 ∧ n = 2 ^ 63) ∨ 2 ^ 63 % d = 0 ∨ 2 ^ 63 ≤ d) :
    ReturnsInt (fold2 m .idiv_s w n d) w (encode w (signedOf w n / d)) ∧
    ReturnsInt (fold2 m .imod_s w n d) w (signedOf w n % d).toNat := by
  obtain ⟨h1, h2, h3, h4, h5⟩ := div_range hw hn hd hd'
  have hc := card_le hw
  have hh := half_le hw
  have hr := signedOf_range hw hn
  have hs := newS_eq m (z := signedOf w n / d) hw (by omega) (by omega)
  rw [if_pos ⟨h1, h2⟩] at hs
  have hd0 : d ≠ 0 := by omega
  constructor <;>
  · unfold ReturnsInt fold2; simp only [fold]
    simp [withPair, getLogWidth_nat hw, getPair, valueU, valueS_eq m hw hn,
      divmodS_right m hw hn hd hd' hx, hs,
      newU_eq m hw (lt_of_lt_of_le h3 hc), h3, unwrapInt, out1, hd0]

/-- The checked signed operations compute the same numbers, with the same restriction (but see
`C15_checked_types_refuted` for the type of the result). -/
theorem C13_checked_s_partial (m : Mode) (w n d : Nat) (hw : w ≤ 6) (hn : n < card w) (hd : 0 < d)
    (hd' : d < card w) (hx : ¬ (w = 6 ∧ n = 2 ^ 63) ∨ 2 ^ 63 % d = 0 ∨ 2 ^ 63 ≤ d) :
    fold2 m .idivmod_checked_s w n d =
      .ok (some [(0, .tuple [.int ⟨w, encode w (signedOf w n / d)⟩,
        .int ⟨w, (signedOf w n % d).toNat⟩])]) ∧
    ReturnsInt (fold2 m .idiv_checked_s w n d) w (encode w (signedOf w n / d)) ∧
    ReturnsInt (fold2 m .imod_checked_s w n d) w (signedOf w n % d).toNat := by
  obtain ⟨h1, h2, h3, h4, h5⟩ := div_range hw hn hd hd'
  have hc := card_le hw
  have hh := half_le hw
  have hr := signedOf_range hw hn
  have hs := newS_eq m (z := signedOf w n / d) hw (by omega) (by omega)
  rw [if_pos ⟨h1, h2⟩] at hs
  have hd0 : d ≠ 0 := by omega
  refine ⟨?_, ?_, ?_⟩ <;> try unfold ReturnsInt
  all_goals
    unfold fold2; simp only [fold]
    simp [withPair, getLogWidth_nat hw, getPair, sameWidth, valueU, valueS_eq m hw hn,
      divmodS_right m hw hn hd hd' hx, hs,
      newU_eq m hw (lt_of_lt_of_le h3 hc), h3, unwrapInt, out1, hd0]

/-- In a release build the folded signed quotient is right for every dividend, `-2^63` included. -/
theorem C13_quotient_release (w n d : Nat) (hw : w ≤ 6) (hn : n < card w) (hd : 0 < d)
    (hd' : d < card w) :
    ReturnsInt (fold2 .release .idiv_s w n d) w (encode w (signedOf w n / d)) := by
  obtain ⟨h1, h2, h3, h4, h5⟩ := div_range hw hn hd hd'
  have hc := card_le hw
  have hh := half_le hw
  have hr := signedOf_range hw hn
  have hs := newS_eq .release (z := signedOf w n / d) hw (by omega) (by omega)
  rw [if_pos ⟨h1, h2⟩] at hs
  have hd0 : d ≠ 0 := by omega
  obtain ⟨r, hq⟩ := divmodS_quotient (n := signedOf w n) (d := d) (by omega) (by omega) hd
    (lt_of_lt_of_le hd' hc)
  unfold ReturnsInt fold2; simp only [fold]
  simp [withPair, getLogWidth_nat hw, getPair, valueU, valueS_eq .release hw hn, hq, hs, unwrapInt,
    out1, hd0]

/-- The remainder of `-2^63` by 3 is folded to 5, which is not below 3 (and the equation fails:
the quotient is the right one, so the remainder should be 1). -/
theorem C13_min_remainder_refuted (m : Mode) :
    fold2 m .idivmod_s 6 (2 ^ 63) 3 =
      .ok (some [(0, .int ⟨6, encode 6 (-3074457345618258603)⟩), (1, .int ⟨6, 5⟩)]) ∧
    ReturnsInt (fold2 m .imod_s 6 (2 ^ 63) 3) 6 5 ∧
    signedOf 6 (2 ^ 63) = -2 ^ 63 ∧ (-2 ^ 63 : Int) / 3 = -3074457345618258603 ∧
    (-2 ^ 63 : Int) % 3 = 1 := by
  refine ⟨?_, ?_, by decide, by decide, by decide⟩
  · cases m <;> rfl
  · cases m <;> rfl

/-- The restriction on `-2^63` in the theorems above cannot be dropped for any divisor: whenever
`d < 2^63` does not divide `2^63`, folding panics or returns a remainder larger than the divisor. -/
theorem C13_min_always_wrong (m : Mode) (d : Nat) (h1 : 2 ^ 63 % d ≠ 0) (h2 : d < 2 ^ 63)
    (hd : 0 < d) :
    fold2 m .imod_s 6 (2 ^ 63) d = .panic ∨
    ∃ r, ReturnsInt (fold2 m .imod_s 6 (2 ^ 63) d) 6 r ∧ d < r := by
  have hc : card 6 = 2 ^ 64 := by unfold card; norm_num
  have hs : signedOf 6 (2 ^ 63) = -2 ^ 63 := by decide
  have hv := valueS_eq m (w := 6) (v := 2 ^ 63) (by omega) (by rw [hc]; norm_num)
  rw [hs] at hv
  have hd1 : d ≠ 1 := by intro h'; subst h'; exact h1 (Nat.mod_one _)
  have hmod : Int.tmod (-2 ^ 63) d = -((2 ^ 63 % d : Nat) : Int) := by
    rw [Int.neg_tmod]; congr 1
  have hdiv : Int.tdiv (-2 ^ 63) d = -((2 ^ 63 / d : Nat) : Int) := by
    rw [Int.neg_tdiv]; congr 1
  have hq : 2 ^ 63 / d ≤ 2 ^ 62 := by
    calc 2 ^ 63 / d ≤ 2 ^ 63 / 2 := Nat.div_le_div_left (by omega) (by omega)
      _ = 2 ^ 62 := by norm_num
  have hr := Nat.mod_lt (2 ^ 63) hd
  have key : divmodS m (-2 ^ 63) d = .panic ∨
      ∃ q, divmodS m (-2 ^ 63) d = .ok (q, d + 2 ^ 63 % d) := by
    unfold divmodS
    rw [if_neg (by omega), if_neg (by simp), if_neg hd1, if_pos h2]
    simp only []
    rw [asI64_small h2, hmod, hdiv]
    generalize 2 ^ 63 / d = q at *
    generalize 2 ^ 63 % d = r at *
    rw [if_neg (by omega), i64_ok _ (by omega) (by omega), andThen_ok]
    unfold i64
    split
    · right
      refine ⟨-(q : Int) - 1, ?_⟩
      rw [andThen_ok, asU64_nonneg (by omega) (by omega)]
      have e : ((d : Int) - -(r : Int)).toNat = d + r := by omega
      rw [e]
    · cases m with
      | debug => left; rfl
      | release =>
        right
        refine ⟨-(q : Int) - 1, ?_⟩
        simp only [andThen_ok]
        rw [asU64_nonneg (z := (d : Int) - -(r : Int)) (by omega) (by omega)]
        have e : ((d : Int) - -(r : Int)).toNat = d + r := by omega
        rw [e]
        have e2 : asU64 (asI64 (d + r)) = d + r := by
          unfold asU64 asI64
          split <;> omega
        rw [e2]
  rcases key with h | ⟨q, h⟩
  · left
    have hd0 : d ≠ 0 := by omega
    unfold fold2; simp only [fold]
    simp [withPair, getLogWidth, isValidLogWidth, getPair, valueU, hd0] at hv h ⊢
    rw [hv]; simp [h]
  · right
    refine ⟨d + 2 ^ 63 % d, ?_, by omega⟩
    have hn := newU_eq m (w := 6) (v := d + 2 ^ 63 % d) (by omega) (by omega)
    rw [if_pos (by rw [hc]; omega)] at hn
    have hd0 : d ≠ 0 := by omega
    unfold ReturnsInt fold2; simp only [fold]
    simp [withPair, getLogWidth, isValidLogWidth, getPair, valueU, hd0, unwrapInt, out1] at hv h hn ⊢
    rw [hv]; simp [h, hn]

example : (2 : Nat) ^ 63 % 3 ≠ 0 := by decide

/-- In a debug build folding the division of `-2^63` by `2^63 - 1` panics. -/
theorem C13_min_panics :
    fold2 .debug .idivmod_s 6 (2 ^ 63) (2 ^ 63 - 1) = .panic ∧
    fold2 .debug .idiv_s 6 (2 ^ 63) (2 ^ 63 - 1) = .panic := by
  constructor <;> rfl

/-! ## Division by zero -/

/-- A zero divisor makes the unchecked operations decline. -/
theorem C13_zero_unchecked (m : Mode) (w n : Nat) (hw : w ≤ 6) (hn : n < card w) (op : IntOp)
    (hop : op ∈ [IntOp.idivmod_u, .idiv_u, .imod_u, .idivmod_s, .idiv_s, .imod_s]) :
    Declines (fold2 m op w n 0) := by
  simp only [List.mem_cons, List.not_mem_nil, or_false] at hop
  unfold Declines fold2
  rcases hop with rfl | rfl | rfl | rfl | rfl | rfl <;> simp only [fold] <;>
    simp [withPair, getLogWidth_nat hw, getPair, valueU, valueS_eq m hw hn]

/-- A zero divisor makes the checked operations return the error variant of their declared type. -/
theorem C13_zero_checked (m : Mode) (w n : Nat) (hw : w ≤ 6) (hn : n < card w) (op : IntOp)
    (hop : op ∈ [IntOp.idivmod_checked_u, .idiv_checked_u, .imod_checked_u, .idivmod_checked_s,
      .idiv_checked_s, .imod_checked_s]) :
    ∃ t, fold2 m op w n 0 = .ok (some [(0, .err t)]) ∧ declaredOutputs w w op = [.sumErr t] := by
  simp only [List.mem_cons, List.not_mem_nil, or_false] at hop
  unfold fold2
  rcases hop with rfl | rfl | rfl | rfl | rfl | rfl <;>
    exact ⟨_, by simp only [fold]; simp [withPair, getLogWidth_nat hw, getPair, sameWidth, valueU,
      valueS_eq m hw hn, out1], rfl⟩

example : fold2 .debug .idivmod_s 3 (256 - 7) 2 =
    .ok (some [(0, .int ⟨3, 256 - 4⟩), (1, .int ⟨3, 1⟩)]) := rfl
example : ¬ (3 = 6 ∧ 256 - 7 = 2 ^ 63) ∨ 2 ^ 63 % 2 = 0 ∨ 2 ^ 63 ≤ 2 := by omega

end Verif.IntFold
