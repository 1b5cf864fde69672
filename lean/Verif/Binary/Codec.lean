import Verif.Binary.Message

/-!
# The binary format

Models hugr-model/src/v0/binary/write.rs and read.rs, on the structs that Cap'n Proto builds and reads; the layout of the fields is
that of the generated hugr-model/src/capnp/hugr_v0_capnp.rs (cited as capnp.rs). `debug` says whether arithmetic is checked for
overflow.
-/
namespace Verif.Binary

/-- `CURRENT_VERSION.major`, hugr-model/FORMAT_VERSION. -/
def currentMajor : UInt32 := 1

/-- `CURRENT_VERSION.minor`, hugr-model/FORMAT_VERSION. -/
def currentMinor : UInt32 := 0

/-! ## Writing -/

/-- Collects the results for a list. -/
def collect {α β : Type} (f : α → Option β) : List α → Option (List β)
  | [] => some []
  | x :: xs =>
    match f x with
    | none => none
    | some y =>
      match collect f xs with
      | none => none
      | some ys => some (y :: ys)

/-- `node.signature.map_or(0, |t| t.0 + 1)`, write.rs:71. `none` is a panic. -/
def writeOptional (debug : Bool) : Option TermId → Option UInt32
  | none => some 0
  | some t => if debug && t == 0xFFFFFFFF then none else some (t + 1)

/-- `write_param`, write.rs:132-135; capnp.rs:4646, 4702, 4718. -/
def writeParam (p : Param) : Struct := ((Struct.init 1 1).setPtr 0 (.ofText p.name)).set32 0 p.type

/-- The number of `Visibility` in the message: hugr-v0.capnp:131-135. -/
def visibilityNumber : Visibility → UInt16
  | .«private» => 1
  | .«public» => 2

/-- `write_symbol`, write.rs:119-130; capnp.rs:2287, 2343, 2363, 2375, 2391, 2399. -/
def writeSymbol (s : Symbol) : Struct :=
  let b := (Struct.init 1 3).setPtr 0 (.ofText s.name)
  let b := match s.visibility with
    | some v => b.set16 2 (visibilityNumber v)
    | none => b
  let b := b.setPtr 1 (.structs (s.params.map writeParam))
  let b := b.setPtr 2 (.words s.constraints)
  b.set32 0 s.signature

/-- `write_operation`, write.rs:74-117; capnp.rs:1403, 1455-1572, 2087, 2099. -/
def writeOperation (op : Operation) : Struct :=
  let b := Struct.init 1 1
  match op with
  | .dfg => b.set16 2 1
  | .cfg => b.set16 2 2
  | .block => b.set16 2 3
  | .tailLoop => b.set16 2 9
  | .conditional => b.set16 2 10
  | .custom t => (b.set16 2 0).set32 0 t
  | .defineFunc s => (b.set16 2 4).setPtr 0 (.struct (writeSymbol s))
  | .declareFunc s => (b.set16 2 5).setPtr 0 (.struct (writeSymbol s))
  | .defineAlias s value => ((b.set16 2 6).setPtr 0 (.struct (writeSymbol s))).set32 0 value
  | .declareAlias s => (b.set16 2 7).setPtr 0 (.struct (writeSymbol s))
  | .declareConstructor s => (b.set16 2 12).setPtr 0 (.struct (writeSymbol s))
  | .declareOperation s => (b.set16 2 13).setPtr 0 (.struct (writeSymbol s))
  | .import name => (b.set16 2 11).setPtr 0 (.ofText name)
  | .invalid => b.set16 2 8

/-- `write_node`, write.rs:65-72; capnp.rs:922 and the accessors of `node`. -/
def writeNode (debug : Bool) (n : Node) : Option Struct :=
  match writeOptional debug n.signature with
  | none => none
  | some sig =>
    let b := (Struct.init 1 5).setPtr 0 (.struct (writeOperation n.operation))
    let b := b.setPtr 1 (.words n.inputs)
    let b := b.setPtr 2 (.words n.outputs)
    let b := b.setPtr 4 (.words n.meta)
    let b := b.setPtr 3 (.words n.regions)
    some (b.set32 0 sig)

/-- The number of `RegionKind` in the message: hugr-v0.capnp:92-96. -/
def kindNumber : RegionKind → UInt16
  | .dataFlow => 0
  | .controlFlow => 1
  | .module => 2

/-- `write_region_scope`, write.rs:155-158; capnp.rs:3063, 3119, 3127. -/
def writeRegionScope (s : RegionScope) : Struct := ((Struct.init 1 0).set32 0 s.links).set32 1 s.ports

/-- `write_region`, write.rs:137-153; capnp.rs:2658, 2714-2798. -/
def writeRegion (debug : Bool) (r : Region) : Option Struct :=
  match writeOptional debug r.signature with
  | none => none
  | some sig =>
    let b := (Struct.init 1 5).set16 0 (kindNumber r.kind)
    let b := b.setPtr 0 (.words r.sources)
    let b := b.setPtr 1 (.words r.targets)
    let b := b.setPtr 2 (.words r.children)
    let b := b.setPtr 3 (.words r.meta)
    let b := b.set32 1 sig
    some (match r.scope with
      | some s => b.setPtr 4 (.struct (writeRegionScope s))
      | none => b)

/-- `write_seq_part`, write.rs:193-198; capnp.rs:3937, 3989-3995. -/
def writeSeqPart : SeqPart → Struct
  | .item t => ((Struct.init 1 0).set16 2 0).set32 0 t
  | .splice t => ((Struct.init 1 0).set16 2 1).set32 0 t

/-- `write_term`, write.rs:160-191; capnp.rs:3430, 3482-3566, 4238, 4246, 4473, 4481. -/
def writeTerm (t : Term) : Struct :=
  let b := Struct.init 2 1
  match t with
  | .wildcard => b.set16 2 8
  | .var node index => (((((b.set16 2 1).set32 0 0).set16 3 0).set32 0 node).set16 3 index)
  | .literal (.str s) => (b.set16 2 3).setPtr 0 (.ofText s)
  | .literal (.nat n) => (b.set16 2 4).set64 1 n
  | .literal (.bytes bs) => (b.set16 2 5).setPtr 0 (.bytes bs)
  | .literal (.float bits) => (b.set16 2 6).set64 1 bits
  | .func region => (b.set16 2 7).set32 0 region
  | .apply symbol args => ((((b.set16 2 0).set32 0 0).setPtr 0 .null).set32 0 symbol).setPtr 0 (.words args)
  | .list parts => (b.set16 2 2).setPtr 0 (.structs (parts.map writeSeqPart))
  | .tuple parts => (b.set16 2 9).setPtr 0 (.structs (parts.map writeSeqPart))

/-- `write_module`, write.rs:58-63; capnp.rs:578 and the accessors of `module`. -/
def writeModule (debug : Bool) (m : Module) : Option Struct :=
  match collect (writeNode debug) m.nodes with
  | none => none
  | some nodes =>
    match collect (writeRegion debug) m.regions with
    | none => none
    | some regions =>
      let b := (Struct.init 1 3).set32 0 m.root
      let b := b.setPtr 0 (.structs nodes)
      let b := b.setPtr 1 (.structs regions)
      some (b.setPtr 2 (.structs (m.terms.map writeTerm)))

/-- `write_version`, write.rs:53-56; capnp.rs:334. -/
def writeVersion (major minor : UInt32) : Struct := ((Struct.init 1 0).set32 0 major).set32 1 minor

/-- `write_package`, write.rs:48-51; capnp.rs:87. `none` is a panic. -/
def writePackage (debug : Bool) (p : Package) : Option Struct :=
  match collect (writeModule debug) p.modules with
  | none => none
  | some modules =>
    some (((Struct.init 0 2).setPtr 0 (.structs modules)).setPtr 1 (.struct (writeVersion currentMajor currentMinor)))

/-! ## Reading

`none` is `ReadError::DecodingError`. -/

/-- `reader.get_signature().checked_sub(1).map(TermId)`, read.rs:149. -/
def readOptional (v : UInt32) : Option TermId := if v = 0 then none else some (v - 1)

/-- `read_param`, read.rs:316-323. -/
def readParam (r : Struct) : Option Param :=
  match (r.getPtr 0).text with
  | none => none
  | some name => some ⟨name, r.get32 0⟩

/-- `get_visibility()?.into()`, read.rs:235-243, 252; numbers not in the schema are errors. -/
def readVisibility (v : UInt16) : Option (Option Visibility) :=
  if v = 0 then some none else if v = 1 then some (some .«private») else if v = 2 then some (some .«public») else none

/-- `read_symbol`, read.rs:246-267. -/
def readSymbol (r : Struct) (constraints : Option (List TermId)) : Option Symbol :=
  match (r.getPtr 0).text, readVisibility (r.get16 2), (r.getPtr 1).asStructs with
  | some name, some vis, some params =>
    match collect readParam params, (match constraints with | some cs => some cs | none => (r.getPtr 2).asWords) with
    | some params, some cs => some ⟨vis, name, params, cs, r.get32 0⟩
    | _, _ => none
  | _, _, _ => none

/-- Reads a symbol behind a pointer. -/
def readSymbolAt (p : Ptr) (constraints : Option (List TermId)) : Option Symbol :=
  match p.asStruct with
  | none => none
  | some r => readSymbol r constraints

/-- `read_operation`, read.rs:161-194, with `which`, capnp.rs:1325-1397. -/
def readOperation (r : Struct) : Option Operation :=
  if r.get16 2 = 0 then some (.custom (r.get32 0))
  else if r.get16 2 = 1 then some .dfg
  else if r.get16 2 = 2 then some .cfg
  else if r.get16 2 = 3 then some .block
  else if r.get16 2 = 4 then (readSymbolAt (r.getPtr 0) none).map .defineFunc
  else if r.get16 2 = 5 then (readSymbolAt (r.getPtr 0) none).map .declareFunc
  else if r.get16 2 = 6 then (readSymbolAt (r.getPtr 0) (some [])).map fun s => .defineAlias s (r.get32 0)
  else if r.get16 2 = 7 then (readSymbolAt (r.getPtr 0) (some [])).map .declareAlias
  else if r.get16 2 = 8 then some .invalid
  else if r.get16 2 = 9 then some .tailLoop
  else if r.get16 2 = 10 then some .conditional
  else if r.get16 2 = 11 then (r.getPtr 0).text.map .import
  else if r.get16 2 = 12 then (readSymbolAt (r.getPtr 0) none).map .declareConstructor
  else if r.get16 2 = 13 then (readSymbolAt (r.getPtr 0) none).map .declareOperation
  else none

/-- `read_node`, read.rs:143-159. -/
def readNode (r : Struct) : Option Node :=
  match (r.getPtr 0).asStruct with
  | none => none
  | some o =>
    match readOperation o, (r.getPtr 1).asWords, (r.getPtr 2).asWords, (r.getPtr 3).asWords, (r.getPtr 4).asWords with
    | some op, some ins, some outs, some regions, some metas => some ⟨op, ins, outs, regions, metas, readOptional (r.get32 0)⟩
    | _, _, _, _, _ => none

/-- The kinds, read.rs:200-204; numbers not in the schema are errors. -/
def readKind (v : UInt16) : Option RegionKind :=
  if v = 0 then some .dataFlow else if v = 1 then some .controlFlow else if v = 2 then some .module else none

/-- `read_region_scope`, read.rs:229-233. -/
def readRegionScope (r : Struct) : RegionScope := ⟨r.get32 0, r.get32 1⟩

/-- The scope, if there is one: read.rs:212-216. -/
def readScope (p : Ptr) : Option (Option RegionScope) :=
  if p.isNull then some none
  else
    match p.asStruct with
    | none => none
    | some s => some (some (readRegionScope s))

/-- `read_region`, read.rs:196-227. -/
def readRegion (r : Struct) : Option Region :=
  match readKind (r.get16 0), readScope (r.getPtr 4) with
  | some kind, some scope =>
    match (r.getPtr 0).asWords, (r.getPtr 1).asWords, (r.getPtr 2).asWords, (r.getPtr 3).asWords with
    | some sources, some targets, some children, some metas =>
      some ⟨kind, sources, targets, children, metas, readOptional (r.get32 1), scope⟩
    | _, _, _, _ => none
  | _, _ => none

/-- `read_seq_part`, read.rs:305-314. -/
def readSeqPart (r : Struct) : Option SeqPart :=
  if r.get16 2 = 0 then some (.item (r.get32 0))
  else if r.get16 2 = 1 then some (.splice (r.get32 0))
  else none

/-- The parts of a list or tuple, read.rs:289-297. -/
def readParts (p : Ptr) : Option (List SeqPart) :=
  match p.asStructs with
  | none => none
  | some ss => collect readSeqPart ss

/-- `read_term`, read.rs:269-302, with `which`, capnp.rs:3372-3424. -/
def readTerm (r : Struct) : Option Term :=
  if r.get16 2 = 0 then (r.getPtr 0).asWords.map (.apply (r.get32 0))
  else if r.get16 2 = 1 then some (.var (r.get32 0) (r.get16 3))
  else if r.get16 2 = 2 then (readParts (r.getPtr 0)).map .list
  else if r.get16 2 = 3 then (r.getPtr 0).text.map fun s => .literal (.str s)
  else if r.get16 2 = 4 then some (.literal (.nat (r.get64 1)))
  else if r.get16 2 = 5 then (r.getPtr 0).data.map fun bs => .literal (.bytes bs)
  else if r.get16 2 = 6 then some (.literal (.float (r.get64 1)))
  else if r.get16 2 = 7 then some (.func (r.get32 0))
  else if r.get16 2 = 8 then some .wildcard
  else if r.get16 2 = 9 then (readParts (r.getPtr 0)).map .tuple
  else none

/-- A list of structs behind a pointer. -/
def readStructs {α : Type} (f : Struct → Option α) (p : Ptr) : Option (List α) :=
  match p.asStructs with
  | none => none
  | some ss => collect f ss

/-- `read_module`, read.rs:111-141. -/
def readModule (r : Struct) : Option Module :=
  match readStructs readNode (r.getPtr 0), readStructs readRegion (r.getPtr 1), readStructs readTerm (r.getPtr 2) with
  | some nodes, some regions, some terms => some ⟨r.get32 0, nodes, regions, terms⟩
  | _, _, _ => none

/-- What reading gives. -/
inductive ReadResult where
  | ok (p : Package)
  | decodingError
  | versionError (major minor : UInt32)
  deriving DecidableEq

/-- `read_package`, read.rs:83-103, with `read_version`, read.rs:105-109. -/
def readPackage (r : Struct) : ReadResult :=
  match (r.getPtr 1).asStruct with
  | none => .decodingError
  | some v =>
    if v.get32 0 ≠ currentMajor ∨ v.get32 1 > currentMinor then .versionError (v.get32 0) (v.get32 1)
    else
      match readStructs readModule (r.getPtr 0) with
      | none => .decodingError
      | some modules => .ok ⟨modules⟩

end Verif.Binary
