import Verif.IntFold.ConvertSpec
import Verif.IntFold.Lemmas
import Mathlib.Data.Rat.Floor
import Mathlib.Tactic.Linarith
import Mathlib.Tactic.Ring
/-! Helper lemmas on conversions. -/
namespace Verif.IntFold

theorem truncRat_spec (q : Rat) : IsTrunc q (truncRat q) := by
  unfold truncRat
  have hd : (0 : Int) < q.den := by exact_mod_cast q.den_pos
  have hdq : (0 : Rat) < (q.den : Rat) := by exact_mod_cast q.den_pos
  have hq : q = (q.num : Rat) / (q.den : Rat) := (Rat.num_div_den q).symm
  have hm := Int.tmod_add_mul_tdiv q.num q.den
  constructor
  · intro h0
    have hn : 0 ≤ q.num := Rat.num_nonneg.2 h0
    have h1 := Int.tmod_nonneg (q.den : Int) hn
    have h2 := Int.tmod_lt_of_pos q.num hd
    have e1 : (q.num.tdiv q.den) * (q.den : Int) ≤ q.num := by linarith [mul_comm (q.den : Int) (q.num.tdiv q.den)]
    have e2 : q.num < (q.num.tdiv q.den + 1) * (q.den : Int) := by
      linarith [mul_comm (q.den : Int) (q.num.tdiv q.den), add_mul (q.num.tdiv q.den) 1 (q.den : Int)]
    have e1' : ((q.num.tdiv q.den : Int) : Rat) * (q.den : Rat) ≤ (q.num : Rat) := by exact_mod_cast e1
    have e2' : (q.num : Rat) < ((q.num.tdiv q.den : Int) + 1 : Rat) * (q.den : Rat) := by exact_mod_cast e2
    constructor
    · rw [hq]; rw [le_div_iff₀ hdq]; simpa [← hq] using e1'
    · rw [hq]; rw [div_lt_iff₀ hdq]; simpa [← hq] using e2'
  · intro h0
    have hn : q.num ≤ 0 := Rat.num_nonpos.2 h0
    have h1 : q.num.tmod q.den ≤ 0 := by
      have := Int.tmod_nonneg (q.den : Int) (neg_nonneg.2 hn)
      rw [Int.neg_tmod] at this; omega
    have h2 : -(q.den : Int) < q.num.tmod q.den := by
      have := Int.tmod_lt_of_pos (-q.num) hd
      rw [Int.neg_tmod] at this; omega
    have e1 : q.num ≤ (q.num.tdiv q.den) * (q.den : Int) := by linarith [mul_comm (q.den : Int) (q.num.tdiv q.den)]
    have e2 : (q.num.tdiv q.den - 1) * (q.den : Int) < q.num := by
      linarith [mul_comm (q.den : Int) (q.num.tdiv q.den), sub_mul (q.num.tdiv q.den) 1 (q.den : Int)]
    have e1' : (q.num : Rat) ≤ ((q.num.tdiv q.den : Int) : Rat) * (q.den : Rat) := by exact_mod_cast e1
    have e2' : ((q.num.tdiv q.den : Int) - 1 : Rat) * (q.den : Rat) < (q.num : Rat) := by exact_mod_cast e2
    constructor
    · rw [hq]; rw [lt_div_iff₀ hdq]; simpa [← hq] using e2'
    · rw [hq]; rw [div_le_iff₀ hdq]; simpa [← hq] using e1'

theorem isTrunc_unique {q : Rat} {a b : Int} (ha : IsTrunc q a) (hb : IsTrunc q b) : a = b := by
  rcases le_total 0 q with h | h
  · have := ha.1 h; have := hb.1 h
    have h1 : (a : Rat) < b + 1 := by linarith
    have h2 : (b : Rat) < a + 1 := by linarith
    have h1' : a < b + 1 := by exact_mod_cast h1
    have h2' : b < a + 1 := by exact_mod_cast h2
    omega
  · have := ha.2 h; have := hb.2 h
    have h1 : (a : Rat) - 1 < b := by linarith
    have h2 : (b : Rat) - 1 < a := by linarith
    have h1' : a - 1 < b := by exact_mod_cast h1
    have h2' : b - 1 < a := by exact_mod_cast h2
    omega

theorem truncRat_eq {q : Rat} {z : Int} (h : IsTrunc q z) : truncRat q = z :=
  isTrunc_unique (truncRat_spec q) h

theorem truncRat_int (z : Int) : truncRat (z : Rat) = z := by
  simp [truncRat]

theorem no_between {q s r : Nat} (hq : 2 ^ 52 ≤ q) (hr : InF64 r) (h1 : q * 2 ^ s < r)
    (h2 : r < (q + 1) * 2 ^ s) : False := by
  obtain ⟨m, t, hm, rfl⟩ := hr
  rcases Nat.lt_or_ge t s with h | h
  · have : m * 2 ^ t ≤ q * 2 ^ s := by
      obtain ⟨d, rfl⟩ : ∃ d, s = t + 1 + d := ⟨s - t - 1, by omega⟩
      calc m * 2 ^ t ≤ 2 ^ 53 * 2 ^ t := Nat.mul_le_mul_right _ hm
        _ = 2 ^ 52 * 2 ^ (t + 1) := by ring
        _ ≤ 2 ^ 52 * 2 ^ (t + 1 + d) := Nat.mul_le_mul_left _ (Nat.pow_le_pow_right (by norm_num) (by omega))
        _ ≤ q * 2 ^ (t + 1 + d) := Nat.mul_le_mul_right _ hq
    omega
  · obtain ⟨d, rfl⟩ : ∃ d, t = s + d := ⟨t - s, by omega⟩
    have e : m * 2 ^ (s + d) = (m * 2 ^ d) * 2 ^ s := by rw [Nat.pow_add]; ring
    rw [e] at h1 h2
    have := Nat.lt_of_mul_lt_mul_right h1
    have := Nat.lt_of_mul_lt_mul_right h2
    omega

theorem inF64_small {n : Nat} (h : n ≤ 2 ^ 53) : InF64 n := ⟨n, 0, h, by simp⟩

theorem roundNat_spec (n : Nat) : IsRounded n (roundNat n) := by
  unfold roundNat
  by_cases hn : n < 2 ^ 53
  · rw [if_pos hn]
    refine ⟨inF64_small hn.le, fun r' _ => by simp [dist], fun r' _ hne he => ?_⟩
    exfalso; apply hne; simp only [dist] at he; omega
  · rw [if_neg hn]
    have hn0 : n ≠ 0 := by rintro rfl; simp at hn
    have hl : 53 ≤ Nat.log2 n := (Nat.le_log2 hn0).2 (by omega)
    obtain ⟨s, hs⟩ : ∃ s, Nat.log2 n = s + 52 := ⟨Nat.log2 n - 52, by omega⟩
    have hlo : 2 ^ (s + 52) ≤ n := hs ▸ Nat.log2_self_le hn0
    have hhi : n < 2 ^ (s + 52 + 1) := hs ▸ Nat.lt_log2_self
    have hsub : Nat.log2 n - 52 = s := by omega
    simp only [hsub]
    have hP : 0 < 2 ^ s := Nat.two_pow_pos s
    have hdm := Nat.div_add_mod n (2 ^ s)
    have hrl := Nat.mod_lt n hP
    have hq1 : 2 ^ 52 ≤ n / 2 ^ s := by
      rw [Nat.le_div_iff_mul_le hP, ← Nat.pow_add, Nat.add_comm]; exact hlo
    have hq2 : n / 2 ^ s < 2 ^ 53 := by
      rw [Nat.div_lt_iff_lt_mul hP, ← Nat.pow_add]
      rwa [show 53 + s = s + 52 + 1 by omega]
    generalize n / 2 ^ s = q at *
    generalize n % 2 ^ s = r at *
    have hnb : ∀ r', InF64 r' → r' ≤ q * 2 ^ s ∨ (q + 1) * 2 ^ s ≤ r' := fun r' hr' => by
      by_contra hc; rw [not_or] at hc
      exact no_between (s := s) hq1 hr' (by omega) (by omega)
    have e1 : (q + 1) * 2 ^ s = q * 2 ^ s + 2 ^ s := by ring
    have e2 : 2 ^ s * q = q * 2 ^ s := by ring
    rw [e2] at hdm
    rw [e1] at hnb
    by_cases hup : 2 ^ s < 2 * r ∨ (2 * r = 2 ^ s ∧ q % 2 = 1)
    · rw [if_pos hup]
      refine ⟨⟨q + 1, s, by omega, rfl⟩, fun r' hr' => ?_, fun r' hr' hne he => ?_⟩
      · have := hnb r' hr'
        rw [e1]; unfold dist; omega
      · have := hnb r' hr'
        rw [e1] at hne he ⊢
        have hr'e : r' = q * 2 ^ s := by unfold dist at he; omega
        have ht : 2 * r = 2 ^ s ∧ q % 2 = 1 := by
          unfold dist at he; subst hr'e; omega
        have hd : dist (q * 2 ^ s + 2 ^ s) r' = 2 ^ s := by unfold dist; omega
        rw [hd, ← e1]
        exact Nat.mul_dvd_mul_right (by omega) _
    · rw [if_neg hup]
      refine ⟨⟨q, s, by omega, rfl⟩, fun r' hr' => ?_, fun r' hr' hne he => ?_⟩
      · have := hnb r' hr'
        unfold dist; omega
      · have := hnb r' hr'
        rw [not_or] at hup
        have hr'e : r' = q * 2 ^ s + 2 ^ s := by unfold dist at he; omega
        have ht : 2 * r = 2 ^ s := by
          unfold dist at he; subst hr'e; omega
        have hd : dist (q * 2 ^ s) r' = 2 ^ s := by unfold dist; omega
        rw [hd]
        exact Nat.mul_dvd_mul_right (by omega) _

theorem isRounded_exact {n r : Nat} (hn : InF64 n) (h : IsRounded n r) : r = n := by
  have := h.2.1 n hn
  unfold dist at this; omega

end Verif.IntFold
