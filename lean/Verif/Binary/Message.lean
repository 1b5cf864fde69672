import Verif.Binary.Table

/-!
# Cap'n Proto messages

Models the structs that `capnp` builds and reads, and that the generated accessors in
hugr-model/src/capnp/hugr_v0_capnp.rs work on: each struct has a data section of bytes and a section of pointers. How structs are
laid out in segments, packing, and the limits on the size of messages are not modelled. Lists are read only with the element
size that they were written with; the library also accepts some others.
-/
namespace Verif.Binary

/-- What a pointer points to. Text is a list of bytes that ends with a zero. -/
inductive Ptr where
  | null
  | struct (s : List UInt8 × List Ptr)
  | words (xs : List UInt32)
  | structs (ss : List (List UInt8 × List Ptr))
  | bytes (bs : List UInt8)

/-- A struct: the bytes of its data section and its pointers. -/
abbrev Struct := List UInt8 × List Ptr

/-- The bytes of a number, the lowest first. -/
def toBytes : Nat → Nat → List UInt8
  | 0, _ => []
  | w + 1, n => UInt8.ofNat (n % 256) :: toBytes w (n / 256)

/-- The number with some bytes, the lowest first. -/
def ofBytes : List UInt8 → Nat
  | [] => 0
  | b :: bs => b.toNat + 256 * ofBytes bs

/-- Writes bytes from a position on. -/
def putBytes : List UInt8 → Nat → List UInt8 → List UInt8
  | d, _, [] => d
  | d, pos, b :: bs => putBytes (d.set pos b) (pos + 1) bs

/-- Reads bytes from a position on; beyond the section they are zero. -/
def takeBytes (d : List UInt8) (pos w : Nat) : List UInt8 := (List.range w).map fun i => d.getD (pos + i) 0

namespace Struct

/-- `init_struct` with a `StructSize`: all zero. -/
def init (words ptrs : Nat) : Struct := (List.replicate (8 * words) 0, List.replicate ptrs .null)

/-- `set_data_field::<u16>`: the index is in units of the size of the field. -/
def set16 (s : Struct) (k : Nat) (v : UInt16) : Struct := (putBytes s.1 (2 * k) (toBytes 2 v.toNat), s.2)

/-- `set_data_field::<u32>`. -/
def set32 (s : Struct) (k : Nat) (v : UInt32) : Struct := (putBytes s.1 (4 * k) (toBytes 4 v.toNat), s.2)

/-- `set_data_field::<u64>`, and `::<f64>` for bits. -/
def set64 (s : Struct) (k : Nat) (v : UInt64) : Struct := (putBytes s.1 (8 * k) (toBytes 8 v.toNat), s.2)

/-- `get_data_field::<u16>`. -/
def get16 (s : Struct) (k : Nat) : UInt16 := UInt16.ofNat (ofBytes (takeBytes s.1 (2 * k) 2))

/-- `get_data_field::<u32>`. -/
def get32 (s : Struct) (k : Nat) : UInt32 := UInt32.ofNat (ofBytes (takeBytes s.1 (4 * k) 4))

/-- `get_data_field::<u64>`, and `::<f64>` for bits. -/
def get64 (s : Struct) (k : Nat) : UInt64 := UInt64.ofNat (ofBytes (takeBytes s.1 (8 * k) 8))

/-- Sets a pointer. -/
def setPtr (s : Struct) (k : Nat) (p : Ptr) : Struct := (s.1, s.2.set k p)

/-- `get_pointer_field`; beyond the section it is null. -/
def getPtr (s : Struct) (k : Nat) : Ptr := s.2.getD k .null

end Struct

/-- `set_text`: the bytes and a zero. -/
def Ptr.ofText (s : String) : Ptr := .bytes (s.toUTF8.data.toList ++ [0])

namespace Ptr

/-- `get_text` without default, and `to_str`; `none` is an error. -/
def text : Ptr → Option String
  | .null => some ""
  | .bytes bs => if bs.getLast? = some 0 then String.fromUTF8? ⟨bs.dropLast.toArray⟩ else none
  | _ => none

/-- `get_data` without default. -/
def data : Ptr → Option (List UInt8)
  | .null => some []
  | .bytes bs => some bs
  | _ => none

/-- `get_list` of `u32`s without default. -/
def asWords : Ptr → Option (List UInt32)
  | .null => some []
  | .words xs => some xs
  | _ => none

/-- `get_list` of structs without default. -/
def asStructs : Ptr → Option (List Struct)
  | .null => some []
  | .structs ss => some ss
  | _ => none

/-- `get_struct` without default. -/
def asStruct : Ptr → Option Struct
  | .null => some ([], [])
  | .struct s => some s
  | _ => none

/-- `is_null`. -/
def isNull : Ptr → Bool
  | .null => true
  | _ => false

end Ptr

end Verif.Binary
