import Verif.Envelope.Header
/-!
# Specification of the envelope header

From the documentation of the envelope format: ten bytes, namely the ascii text
"HUGRiHJv", a format byte, and a flags byte that is ascii `@` (uncompressed) or
`A` (zstd-compressed payload).
-/
namespace Verif.Envelope

/-- The format byte. -/
def formatByte : Format → UInt8
  | .model => 1
  | .modelWithExtensions => 2
  | .modelText => 40
  | .modelTextWithExtensions => 41
  | .packageJson => 63

/-- The ten bytes of a header. -/
def headerBytes (format : Format) (zstd : Bool) : List UInt8 :=
  [72, 85, 71, 82, 105, 72, 74, 118, formatByte format, if zstd then 65 else 64]

/-- The first eight bytes of every envelope. -/
def magicBytes : List UInt8 := [72, 85, 71, 82, 105, 72, 74, 118]

/-- The number of a flag bit that a reader does not know: any bit other than bit 0
(zstd) that differs from its fixed value (1 for bit 6, 0 for the others). -/
def UnknownFlag (flags : UInt8) (i : Nat) : Prop :=
  i < 8 ∧ i ≠ 0 ∧ (flags.toNat.testBit i ↔ i ≠ 6)

end Verif.Envelope
