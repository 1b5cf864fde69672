/-
The standard base64 encoding with padding, used for byte strings in JSON.
Models `mod base64` of hugr-core/src/types/serialize.rs:214-236, which calls `BASE64_STANDARD` of
the crate `base64` (RFC 4648, canonical padding required, trailing bits must be zero).
-/
namespace Verif.Types.Base64

/-- The alphabet of RFC 4648, `base64::alphabet::STANDARD`. -/
def alphabet : List Char :=
  "ABCDEFGHIJKLMNOPQRSTUVWXYZabcdefghijklmnopqrstuvwxyz0123456789+/".toList

/-- The symbol for a number below 64. -/
def symbol (n : Nat) : Char := alphabet.getD n '='

/-- The number of a symbol. -/
def sextet (c : Char) : Option Nat :=
  if alphabet.contains c then some (alphabet.idxOf c) else none

/-- `BASE64_STANDARD.encode`, called in types/serialize.rs:224: three bytes become four symbols,
the last group is padded with `=`. -/
def encode : List Nat → List Char
  | [] => []
  | [a] => [symbol (a / 4), symbol (a % 4 * 16), '=', '=']
  | [a, b] => [symbol (a / 4), symbol (a % 4 * 16 + b / 16), symbol (b % 16 * 4), '=']
  | a :: b :: c :: rest =>
    symbol (a / 4) :: symbol (a % 4 * 16 + b / 16) :: symbol (b % 16 * 4 + c / 64) ::
      symbol (c % 64) :: encode rest

/-- The last group `wx==`: one byte; the four spare bits must be zero. -/
def decodeOne (w x : Char) : Option (List Nat) :=
  match sextet w, sextet x with
  | some w, some x => if x % 16 = 0 then some [w * 4 + x / 16] else none
  | _, _ => none

/-- The last group `wxy=`: two bytes; the two spare bits must be zero. -/
def decodeTwo (w x y : Char) : Option (List Nat) :=
  match sextet w, sextet x, sextet y with
  | some w, some x, some y =>
    if y % 4 = 0 then some [w * 4 + x / 16, x % 16 * 16 + y / 4] else none
  | _, _, _ => none

/-- A full group: three bytes. -/
def decodeThree (w x y z : Char) : Option (List Nat) :=
  match sextet w, sextet x, sextet y, sextet z with
  | some w, some x, some y, some z =>
    some [w * 4 + x / 16, x % 16 * 16 + y / 4, y % 4 * 64 + z]
  | _, _, _, _ => none

/-- `BASE64_STANDARD.decode`, called in types/serialize.rs:230-233. -/
def decode : List Char → Option (List Nat)
  | [] => some []
  | [w, x, y, z] =>
    if z = '=' then if y = '=' then decodeOne w x else decodeTwo w x y
    else decodeThree w x y z
  | w :: x :: y :: z :: rest =>
    match decodeThree w x y z, decode rest with
    | some bs, some bs' => some (bs ++ bs')
    | _, _ => none
  | _ => none

theorem sextet_symbol {n : Nat} (h : n < 64) : sextet (symbol n) = some n := by
  have : ∀ n : Fin 64, sextet (symbol n.1) = some n.1 := by decide +kernel
  exact this ⟨n, h⟩

theorem symbol_ne {n : Nat} (h : n < 64) : symbol n ≠ '=' := by
  have : ∀ n : Fin 64, symbol n.1 ≠ '=' := by decide +kernel
  exact this ⟨n, h⟩

theorem sextet_lt {c : Char} {n : Nat} (h : sextet c = some n) : n < 64 := by
  unfold sextet at h
  split at h
  · next hc =>
    cases h
    have := List.idxOf_lt_length_iff.mpr (List.contains_iff_mem.mp hc)
    exact this
  · cases h

theorem decode_group (w x y z : Char) (rest : List Char) (hz : z ≠ '=') :
    decode (w :: x :: y :: z :: rest) =
      match decodeThree w x y z, decode rest with
      | some bs, some bs' => some (bs ++ bs')
      | _, _ => none := by
  cases rest with
  | nil =>
    have e : decode [w, x, y, z] = decodeThree w x y z := by simp [decode, hz]
    rw [e]
    cases decodeThree w x y z <;> simp [decode]
  | cons c cs => rw [decode]; simp

/-- Decoding gives back the encoded bytes. -/
theorem decode_encode : ∀ (bs : List Nat), (∀ b ∈ bs, b < 256) → decode (encode bs) = some bs
  | [], _ => rfl
  | [a], h => by
    have ha : a < 256 := h a (by simp)
    rw [encode, decode, if_pos rfl, if_pos rfl, decodeOne, sextet_symbol (by omega),
      sextet_symbol (by omega)]
    simp only []
    rw [if_pos (by omega)]
    congr 2
    omega
  | [a, b], h => by
    have ha : a < 256 := h a (by simp)
    have hb : b < 256 := h b (by simp)
    rw [encode, decode, if_pos rfl, if_neg (symbol_ne (by omega)), decodeTwo,
      sextet_symbol (by omega), sextet_symbol (by omega), sextet_symbol (by omega)]
    simp only []
    rw [if_pos (by omega)]
    congr 2
    · omega
    · congr 1; omega
  | a :: b :: c :: rest, h => by
    have ha : a < 256 := h a (by simp)
    have hb : b < 256 := h b (by simp)
    have hc : c < 256 := h c (by simp)
    have ih := decode_encode rest (fun x hx => h x (by simp [hx]))
    rw [encode, decode_group _ _ _ _ _ (symbol_ne (by omega)), ih, decodeThree,
      sextet_symbol (by omega), sextet_symbol (by omega), sextet_symbol (by omega),
      sextet_symbol (by omega)]
    simp only [List.cons_append, List.nil_append, Option.some.injEq, List.cons.injEq, and_true]
    omega

/-- Decoding yields bytes. -/
theorem decode_lt : ∀ (cs : List Char) (bs : List Nat), decode cs = some bs → ∀ b ∈ bs, b < 256
  | cs, bs => by
    have three : ∀ (w x y z : Char) (l : List Nat), decodeThree w x y z = some l →
        ∀ b ∈ l, b < 256 := by
      intro w x y z l h
      unfold decodeThree at h
      split at h
      · next hw hx hy hz =>
        cases h
        have := sextet_lt hw; have := sextet_lt hx; have := sextet_lt hy; have := sextet_lt hz
        simp only [List.mem_cons, List.not_mem_nil, or_false]
        rintro b (rfl | rfl | rfl) <;> omega
      · cases h
    intro h
    match cs, h with
    | [], h => cases h; simp
    | [w, x, y, z], h =>
      rw [decode] at h
      split at h
      · split at h
        · unfold decodeOne at h
          split at h
          · next hw hx =>
            have := sextet_lt hw; have := sextet_lt hx
            split at h
            · cases h
              simp only [List.mem_cons, List.not_mem_nil, or_false]
              rintro b rfl; omega
            · cases h
          · cases h
        · unfold decodeTwo at h
          split at h
          · next hw hx hy =>
            have := sextet_lt hw; have := sextet_lt hx; have := sextet_lt hy
            split at h
            · cases h
              simp only [List.mem_cons, List.not_mem_nil, or_false]
              rintro b (rfl | rfl) <;> omega
            · cases h
          · cases h
      · exact three _ _ _ _ _ h
    | w :: x :: y :: z :: c :: rest, h =>
      rw [decode.eq_def] at h
      simp only [] at h
      split at h
      · next h1 h2 =>
        cases h
        intro b hb
        rcases List.mem_append.mp hb with hb | hb
        · exact three _ _ _ _ _ h1 b hb
        · exact decode_lt _ _ h2 b hb
      · cases h
    | [_], h => simp [decode] at h
    | [_, _], h => simp [decode] at h
    | [_, _, _], h => simp [decode] at h

end Verif.Types.Base64
