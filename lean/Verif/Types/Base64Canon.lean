import Verif.Types.JsonProps
/-
C62: every byte string has exactly one base64 form that is read.
-/
namespace Verif.Types.Base64

theorem symbol_sextet {c : Char} {n : Nat} (h : sextet c = some n) : symbol n = c := by
  unfold sextet at h
  split at h
  · next hc =>
    cases h
    have hl := List.idxOf_lt_length_iff.mpr (List.contains_iff_mem.mp hc)
    unfold symbol
    rw [List.getD_eq_getElem?_getD, List.getElem?_eq_getElem hl, Option.getD_some]
    exact List.getElem_idxOf hl
  · cases h

theorem encode_one {w x : Char} {bs : List Nat} (h : decodeOne w x = some bs) :
    ∃ a, bs = [a] ∧ encode bs = [w, x, '=', '='] := by
  unfold decodeOne at h
  split at h
  · next m n hm hn =>
    split at h
    · next h0 =>
      cases h
      have := sextet_lt hm; have := sextet_lt hn
      refine ⟨_, rfl, ?_⟩
      rw [encode, show (m * 4 + n / 16) / 4 = m by omega,
        show (m * 4 + n / 16) % 4 * 16 = n by omega, symbol_sextet hm, symbol_sextet hn]
    · cases h
  · cases h

theorem encode_two {w x y : Char} {bs : List Nat} (h : decodeTwo w x y = some bs) :
    encode bs = [w, x, y, '='] := by
  unfold decodeTwo at h
  split at h
  · next m n k hm hn hk =>
    split at h
    · next h0 =>
      cases h
      have := sextet_lt hm; have := sextet_lt hn; have := sextet_lt hk
      rw [encode, show (m * 4 + n / 16) / 4 = m by omega,
        show (m * 4 + n / 16) % 4 * 16 + (n % 16 * 16 + k / 4) / 16 = n by omega,
        show (n % 16 * 16 + k / 4) % 16 * 4 = k by omega,
        symbol_sextet hm, symbol_sextet hn, symbol_sextet hk]
    · cases h
  · cases h

theorem encode_three {w x y z : Char} {bs rest : List Nat} (h : decodeThree w x y z = some bs) :
    encode (bs ++ rest) = w :: x :: y :: z :: encode rest := by
  unfold decodeThree at h
  split at h
  · next m n k l hm hn hk hl =>
    cases h
    have := sextet_lt hm; have := sextet_lt hn; have := sextet_lt hk; have := sextet_lt hl
    simp only [List.cons_append, List.nil_append]
    rw [encode, show (m * 4 + n / 16) / 4 = m by omega,
      show (m * 4 + n / 16) % 4 * 16 + (n % 16 * 16 + k / 4) / 16 = n by omega,
      show (n % 16 * 16 + k / 4) % 16 * 4 + (k % 4 * 64 + l) / 64 = k by omega,
      show (k % 4 * 64 + l) % 64 = l by omega,
      symbol_sextet hm, symbol_sextet hn, symbol_sextet hk, symbol_sextet hl]
  · cases h

/-- Encoding gives back the decoded text. -/
theorem encode_decode : ∀ (cs : List Char) (bs : List Nat), decode cs = some bs → encode bs = cs
  | [], bs, h => by cases h; rfl
  | [w, x, y, z], bs, h => by
    rw [decode] at h
    split at h
    · next hz =>
      split at h
      · next hy =>
        obtain ⟨_, _, he⟩ := encode_one h
        rw [he, hy, hz]
      · rw [encode_two h, hz]
    · have := encode_three (rest := []) h
      simpa [encode] using this
  | w :: x :: y :: z :: c :: rest, bs, h => by
    rw [decode] at h
    · split at h
      · next b1 b2 h1 h2 =>
        cases h
        rw [encode_three h1, encode_decode _ _ h2]
      · cases h
    · simp
  | [_], _, h => by simp [decode] at h
  | [_, _], _, h => by simp [decode] at h
  | [_, _, _], _, h => by simp [decode] at h

end Verif.Types.Base64

namespace Verif.Types

/-- C62: a byte string has one base64 form only: what is read from two different texts differs, and
writing what was read gives the same text. -/
theorem C62_bytes_canonical (cs cs' : List Char) (bs : List Nat)
    (h : Base64.decode cs = some bs) :
    Base64.encode bs = cs ∧ (Base64.decode cs' = some bs → cs' = cs) := by
  have h1 := Base64.encode_decode cs bs h
  exact ⟨h1, fun h' => (Base64.encode_decode cs' bs h').symm.trans h1⟩

example : Base64.decode "AQL/".toList = some [1, 2, 255] ∧ Base64.decode "AQ==".toList = some [1] ∧
    Base64.decode "AR==".toList = none := by decide +kernel

end Verif.Types
