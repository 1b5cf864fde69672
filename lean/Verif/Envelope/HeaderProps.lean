import Verif.Envelope.HeaderSpec
/-!
# C32: envelope headers round-trip and are the only accepted ones
-/
namespace Verif.Envelope

theorem forall_uint8 {p : UInt8 → Prop} (h : ∀ n : Fin 256, p (UInt8.ofFin n)) : ∀ b, p b := by
  intro b
  have := h b.toFin
  rwa [UInt8.ofFin_toFin] at this

theorem write_eq (h : Header) : h.write = headerBytes h.format h.zstd := by
  obtain ⟨f, z⟩ := h
  cases f <;> cases z <;> decide

theorem magic_eq : magicNumbers = magicBytes := by decide

/-- The bytes a format can be recognised by are exactly the format bytes. -/
theorem fromRepr_iff : ∀ (b : UInt8) (f : Format),
    Format.fromRepr b.toNat = some f ↔ b = formatByte f := by
  intro b f
  revert b
  apply forall_uint8
  cases f <;> decide +kernel

theorem fromRepr_none (b : UInt8) : Format.fromRepr b.toNat = none ↔ ∀ f, b ≠ formatByte f := by
  constructor
  · intro h f hf
    rw [(fromRepr_iff b f).2 hf] at h
    simp at h
  · intro h
    cases hc : Format.fromRepr b.toNat with
    | none => rfl
    | some f => exact absurd ((fromRepr_iff b f).1 hc) (h f)

theorem flags_known : ∀ b : UInt8, (b ^^^ defaultFlags) &&& ~~~zstdFlag = 0 ↔ b = 64 ∨ b = 65 := by
  apply forall_uint8; decide +kernel

theorem flags_zstd : ∀ b : UInt8, (b = 64 ∨ b = 65) →
    b = if (b &&& zstdFlag != 0) then 65 else 64 := by
  apply forall_uint8; decide +kernel

instance (flags : UInt8) (i : Nat) : Decidable (UnknownFlag flags i) := by
  unfold UnknownFlag; infer_instance

theorem flags_ids_aux : ∀ (n : Fin 256) (i : Fin 8),
    (((UInt8.ofFin n ^^^ defaultFlags) &&& ~~~zstdFlag) &&& (1 <<< UInt8.ofNat i.val) != 0) = true ↔
      UnknownFlag (UInt8.ofFin n) i.val := by decide +kernel

theorem flags_ids (b : UInt8) (i : Nat) :
    i ∈ (List.range 8).filter (fun i =>
      ((b ^^^ defaultFlags) &&& ~~~zstdFlag) &&& (1 <<< UInt8.ofNat i) != 0) ↔ UnknownFlag b i := by
  rw [List.mem_filter, List.mem_range]
  have h := flags_ids_aux b.toFin
  rw [UInt8.ofFin_toFin] at h
  constructor
  · rintro ⟨hi, hb⟩
    exact (h ⟨i, hi⟩).1 hb
  · intro hu
    exact ⟨hu.1, (h ⟨i, hu.1⟩).2 hu⟩

theorem range_filter_sorted (p : Nat → Bool) :
    ((List.range 8).filter p).Pairwise (· < ·) := List.pairwise_lt_range.filter p

/-- **C32 (i).** Reading what `write` wrote, followed by anything, returns the header
and leaves exactly what followed; and what is written is the documented ten bytes. -/
theorem C32_header_round_trip (h : Header) (rest : List UInt8) :
    Header.read (h.write ++ rest) = .ok (h, rest) ∧ h.write = headerBytes h.format h.zstd := by
  refine ⟨?_, write_eq h⟩
  rw [write_eq]
  obtain ⟨f, z⟩ := h
  cases f <;> cases z <;>
    simp [Header.read, headerBytes, formatByte, readExact, magic_eq, magicBytes, Format.fromRepr,
      show ¬ (rest.length + 1 + 1 + 1 + 1 + 1 + 1 + 1 + 1 + 1 + 1 < 8) by omega]
  all_goals rfl

/-- A reader for the expected outcome of reading a byte sequence. -/
def ReadSpec (bytes : List UInt8) : Except HeaderError (Header × List UInt8) → Prop
  | .ok (h, rest) => bytes = headerBytes h.format h.zstd ++ rest
  | .error .io =>
    bytes.length < 8 ∨ bytes = magicBytes ∨
      ∃ f : Format, bytes = magicBytes ++ [formatByte f]
  | .error (.magicNumber expected found) =>
    expected = magicBytes ∧ found = bytes.take 8 ∧ found.length = 8 ∧ found ≠ magicBytes
  | .error (.invalidFormatDescriptor d) =>
    ∃ b rest, bytes = magicBytes ++ b :: rest ∧ (∀ f, b ≠ formatByte f) ∧ d = b.toNat
  | .error (.flagUnsupported ids) =>
    ∃ f b rest, bytes = magicBytes ++ formatByte f :: b :: rest ∧
      (∀ i, i ∈ ids ↔ UnknownFlag b i) ∧ ids.Pairwise (· < ·) ∧ ids ≠ []

/-- **C32 (ii).** For every byte sequence: an accepted prefix is the encoding of the
header returned and the rest is left unread, and each rejection carries the error
that describes the bytes. -/
theorem C32_header_read_exact (bytes : List UInt8) : ReadSpec bytes (Header.read bytes) := by
  unfold Header.read
  by_cases h8 : bytes.length < 8
  · rw [show readExact 8 bytes = .error .io by simp [readExact, h8]]
    exact Or.inl h8
  rw [show readExact 8 bytes = .ok (bytes.take 8, bytes.drop 8) by simp [readExact, h8]]
  by_cases hm : bytes.take 8 = magicNumbers
  · have hbytes : bytes = magicBytes ++ bytes.drop 8 := by
      rw [← magic_eq, ← hm, List.take_append_drop]
    simp only [hm, if_true]
    cases hd : bytes.drop 8 with
    | nil =>
      rw [hd] at hbytes
      exact Or.inr (Or.inl (by simpa using hbytes))
    | cons b rest =>
      rw [hd] at hbytes
      rw [show readExact 1 (b :: rest) = .ok ([b], rest) by simp [readExact]]
      simp only [List.headD_cons]
      cases hf : Format.fromRepr b.toNat with
      | none => exact ⟨b, rest, hbytes, (fromRepr_none b).1 hf, rfl⟩
      | some f =>
        have hb := (fromRepr_iff b f).1 hf
        cases rest with
        | nil => exact Or.inr (Or.inr ⟨f, by rw [hbytes, hb]⟩)
        | cons c rest =>
          rw [show readExact 1 (c :: rest) = .ok ([c], rest) by simp [readExact]]
          simp only [List.headD_cons]
          unfold readFlags
          simp only []
          by_cases hz : (c ^^^ defaultFlags) &&& ~~~zstdFlag = 0
          · rw [if_pos hz]
            have hc := flags_zstd c ((flags_known c).1 hz)
            simp only [ReadSpec, headerBytes]
            rw [hbytes, hb, ← hc]
            rfl
          · rw [if_neg hz]
            refine ⟨f, c, rest, by rw [hbytes, hb], flags_ids c, range_filter_sorted _, ?_⟩
            intro hnil
            have hno : ∀ i, ¬ UnknownFlag c i := fun i hi => by
              have := (flags_ids c i).2 hi
              rw [hnil] at this
              simp at this
            have hall : ∀ b : UInt8, (∀ i : Fin 8, ¬ UnknownFlag b i.val) →
                (b ^^^ defaultFlags) &&& ~~~zstdFlag = 0 := by
              apply forall_uint8; decide +kernel
            exact hz (hall c (fun i => hno i.val))
  · simp only [hm, if_false]
    refine ⟨magic_eq, rfl, ?_, ?_⟩
    · rw [List.length_take]; omega
    · rw [← magic_eq]; exact hm

/-- Distinct headers have distinct encodings: an accepted prefix determines the
header. -/
theorem C32_header_unique (h h' : Header) (r r' : List UInt8)
    (he : h.write ++ r = h'.write ++ r') : h = h' ∧ r = r' := by
  have h1 := (C32_header_round_trip h r).1
  rw [he, (C32_header_round_trip h' r').1] at h1
  simpa [eq_comm] using h1

/-- Concrete runs of the model: an accepted and two rejected prefixes. -/
example : Header.read [72, 85, 71, 82, 105, 72, 74, 118, 63, 65, 1, 2] =
      .ok (⟨.packageJson, true⟩, [1, 2]) ∧
    Header.read [72, 85, 71, 82, 105, 72, 74, 118, 63, 0b01100100] =
      .error (.flagUnsupported [2, 5]) ∧
    Header.read [72, 85, 71, 82, 105, 72, 74, 118, 3, 64] =
      .error (.invalidFormatDescriptor 3) := ⟨rfl, rfl, rfl⟩

end Verif.Envelope
