/-!
# Model of the envelope header

Source: `/repo/hugr-core/src/envelope/header.rs`. A reader is modelled by the
bytes it will still deliver; `read_exact` fails with an I/O error when fewer
bytes remain. Other I/O errors of the underlying reader are not modelled.
-/
namespace Verif.Envelope

/-- `MAGIC_NUMBERS`, header.rs:13: the ascii bytes of "HUGRiHJv". -/
def magicNumbers : List UInt8 := "HUGRiHJv".toList.map fun c => UInt8.ofNat c.toNat

/-- `DEFAULT_FLAGS`, header.rs:17. -/
def defaultFlags : UInt8 := 0b01000000
/-- `ZSTD_FLAG`, header.rs:19. -/
def zstdFlag : UInt8 := 0b00000001

/-- `EnvelopeFormat`, header.rs:36-71. -/
inductive Format where
  | model
  | modelWithExtensions
  | modelText
  | modelTextWithExtensions
  | packageJson
deriving DecidableEq, Repr

/-- The discriminants of `EnvelopeFormat`, header.rs:42-71 (`self.format as u8`). -/
def Format.discriminant : Format → UInt8
  | .model => 1
  | .modelWithExtensions => 2
  | .modelText => 40
  | .modelTextWithExtensions => 41
  | .packageJson => 63

/-- `EnvelopeFormat::from_repr` (derived by `strum::FromRepr`, header.rs:38). -/
def Format.fromRepr (n : Nat) : Option Format :=
  if n = 1 then some .model
  else if n = 2 then some .modelWithExtensions
  else if n = 40 then some .modelText
  else if n = 41 then some .modelTextWithExtensions
  else if n = 63 then some .packageJson
  else none

/-- `EnvelopeHeader`, header.rs:28-33. -/
structure Header where
  format : Format
  zstd : Bool
deriving DecidableEq, Repr

/-- `HeaderErrorInner`, header.rs:215-256 (the `zstd` feature enabled). -/
inductive HeaderError where
  | magicNumber (expected found : List UInt8)
  | invalidFormatDescriptor (descriptor : Nat)
  | io
  | flagUnsupported (flagIds : List Nat)
deriving DecidableEq, Repr

/-- `EnvelopeHeader::write`, header.rs:281-295. -/
def Header.write (h : Header) : List UInt8 :=
  let flags := defaultFlags
  let flags := if h.zstd then flags ||| zstdFlag else flags
  magicNumbers ++ [h.format.discriminant] ++ [flags]

/-- `Read::read_exact` on the remaining bytes. -/
def readExact (n : Nat) (bytes : List UInt8) : Except HeaderError (List UInt8 × List UInt8) :=
  if bytes.length < n then .error .io else .ok (bytes.take n, bytes.drop n)

/-- The part of `EnvelopeHeader::read` that interprets the flags byte,
header.rs:326-338. -/
def readFlags (format : Format) (flags : UInt8) (bytes : List UInt8) :
    Except HeaderError (Header × List UInt8) :=
  let zstd : Bool := flags &&& zstdFlag != 0
  let otherFlags := (flags ^^^ defaultFlags) &&& ~~~zstdFlag
  if otherFlags = 0 then .ok (⟨format, zstd⟩, bytes)
  else .error (.flagUnsupported
    ((List.range 8).filter fun i => otherFlags &&& (1 <<< UInt8.ofNat i) != 0))

/-- `EnvelopeHeader::read`, header.rs:301-338; also returns the bytes that the
reader still holds afterwards. -/
def Header.read (bytes : List UInt8) : Except HeaderError (Header × List UInt8) :=
  match readExact 8 bytes with
  | .error e => .error e
  | .ok (magic, bytes) =>
    if magic = magicNumbers then
      match readExact 1 bytes with
      | .error e => .error e
      | .ok (formatBytes, bytes) =>
        match Format.fromRepr (formatBytes.headD 0).toNat with
        | none => .error (.invalidFormatDescriptor (formatBytes.headD 0).toNat)
        | some format =>
          match readExact 1 bytes with
          | .error e => .error e
          | .ok (flagsBytes, bytes) => readFlags format (flagsBytes.headD 0) bytes
    else .error (.magicNumber magicNumbers magic)

end Verif.Envelope
