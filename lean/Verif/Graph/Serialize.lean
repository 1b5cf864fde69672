import Verif.Graph.Insert

/-!
# Model of the JSON form of a Hugr

Source: `/repo/hugr-core/src/hugr/serialize.rs`, the conversions between `Hugr` and `SerHugrLatest`.
Reading and writing the JSON text of a `SerHugrLatest` is the work of `serde` and not modelled.
-/
namespace Verif.Graph

variable {Op Meta : Type}

/-- What serialisation needs to know of operations, `OpType` in ops.rs: `is_module`,
`value_port_count`, `static_port`, "`other_port_kind` is `StateOrder`" and `other_port`
(ops.rs:150-330). -/
structure SerInfo (Op : Type) extends OpInfo Op where
  isModule : Op → Bool
  valuePorts : Op → Dir → Nat
  staticPort : Op → Dir → Option Nat
  otherIsOrder : Op → Dir → Bool
  otherPort : Op → Dir → Option Nat

/-- One end of an edge: a node and, unless the port is the order port, its offset; serialize.rs:94. -/
abbrev SerPort := Nat × Option Nat

/-- `SerHugrLatest`, serialize.rs:90-108, without the name of the encoder. `NodeSer` is the pair of
parent and operation. -/
structure SerHugr (Op Meta : Type) where
  nodes : List (Nat × Op)
  edges : List (SerPort × SerPort)
  metadata : Option (List (Option (List (String × Meta))))
  entrypoint : Option Nat

/-- Lookup in `node_rekey`, serialize.rs:192-196; `none` is the panic of indexing. -/
def rekey (order : List Nat) (n : Nat) : Option Nat :=
  if n ∈ order then some (order.idxOf n) else none

/-- The loop over nodes, serialize.rs:200-209; `none` if an index is out of range. -/
def serNodes (h : Hugr Op Meta) (order : List Nat) :
    List Nat → List (Option (Nat × Op)) × List (Option (List (String × Meta))) →
      Option (List (Option (Nat × Op)) × List (Option (List (String × Meta))))
  | [], acc => some acc
  | n :: ns, acc =>
    match rekey order ((h.getParent n).getD n), rekey order n with
    | some p, some i =>
      if i < acc.1.length then
        serNodes h order ns (acc.1.set i (some (p, h.ops n)), acc.2.set i (h.metadata n))
      else none
    | _, _ => none

/-- `Iterator::collect::<Option<Vec<_>>>`. -/
def allSome {α : Type} : List (Option α) → Option (List α)
  | [] => some []
  | none :: _ => none
  | some a :: l => (allSome l).map (a :: ·)

/-- The closure `find_offset`, serialize.rs:215-223. -/
def findOffset (I : SerInfo Op) (h : Hugr Op Meta) (order : List Nat) (n offset : Nat) (dir : Dir) :
    Option SerPort :=
  let op := h.ops n
  let isValuePort := decide (offset < I.valuePorts op dir)
  let isStaticInput := I.staticPort op dir == some offset
  let otherPortIsNotOrder := !I.otherIsOrder op dir
  (rekey order n).map fun k =>
    (k, if isValuePort || isStaticInput || otherPortIsNotOrder then some offset else none)

/-- Two values, or a panic if one of them panics. -/
def both {α β : Type} : Option α → Option β → Option (α × β)
  | some a, some b => some (a, b)
  | _, _ => none

/-- The edges, serialize.rs:225-238. -/
def serEdges (I : SerInfo Op) (h : Hugr Op Meta) (order : List Nat) :
    Option (List (SerPort × SerPort)) :=
  allSome (h.nodes.flatMap fun n => (List.range (h.outs n)).flatMap fun port =>
    (h.linkedInputs n port).map fun t =>
      both (findOffset I h order n port .outgoing) (findOffset I h order t.1 t.2 .incoming))

/-- `TryFrom<&Hugr> for SerHugrLatest`, serialize.rs:187-251; `none` is a panic. -/
def Hugr.serialize (I : SerInfo Op) (h : Hugr Op Meta) : Option (SerHugr Op Meta) :=
  let order := h.descendants h.moduleRoot
  let empty := (List.replicate h.nodes.length none, List.replicate h.nodes.length none)
  match serNodes h order h.nodes empty with
  | none => none
  | some (nodes, metadata) =>
    match allSome nodes, serEdges I h order, rekey order h.entrypoint with
    | some nodes, some edges, some e =>
      some { nodes := nodes, edges := edges, metadata := some metadata, entrypoint := some e }
    | _, _, _ => none

/-- The outcome of reading a Hugr. `wrapped` stands for files whose first node is not a module:
`Hugr::with_capacity` then puts that node into a module made for it, which is not modelled. -/
inductive ReadResult (Op Meta : Type) where
  | panic
  | firstNodeNotRoot
  | unknownEdgeNode
  | missingPortOffset
  | wrapped
  | ok (h : Hugr Op Meta)

/-- The loop adding nodes, serialize.rs:284-286. The graph never had a node removed, so the
allocator returns the indices in order; `next` is the first one not in use. -/
def readNodes (I : OpInfo Op) : Nat → List (Nat × Op) → Hugr Op Meta → Option (Hugr Op Meta)
  | _, [], h => some h
  | next, (parent, op) :: rest, h =>
    match h.addNodeWithParent I next parent op with
    | none => none
    | some h' => readNodes I (next + 1) rest h'

/-- The loop over metadata, serialize.rs:292-299. -/
def readMetadata : Nat → List (Option (List (String × Meta))) → Hugr Op Meta → Hugr Op Meta
  | _, [], h => h
  | i, none :: rest, h => readMetadata (i + 1) rest h
  | i, some m :: rest, h =>
    readMetadata (i + 1) rest { h with metadata := upd h.metadata i (some m) }

/-- The closure `unwrap_offset` once the node is known to be in the graph,
serialize.rs:301-319. -/
def portOffset (I : SerInfo Op) (h : Hugr Op Meta) (p : SerPort) (dir : Dir) : Option Nat :=
  match p.2 with
  | some offset => some offset
  | none => I.otherPort (h.ops p.1) dir

/-- The loop over edges, serialize.rs:320-328. -/
def readEdges (I : SerInfo Op) : List (SerPort × SerPort) → Hugr Op Meta → ReadResult Op Meta
  | [], h => .ok h
  | (src, dst) :: rest, h =>
    if !h.live src.1 then .unknownEdgeNode
    else match portOffset I h src .outgoing with
    | none => .missingPortOffset
    | some srcPort =>
      if !h.live dst.1 then .unknownEdgeNode
      else match portOffset I h dst .incoming with
      | none => .missingPortOffset
      | some dstPort =>
        match h.connect { src := src.1, srcPort := srcPort, dst := dst.1, dstPort := dstPort } with
        | none => .panic
        | some h' => readEdges I rest h'

/-- `TryFrom<SerHugrLatest> for Hugr`, serialize.rs:252-332, for files starting with a module, where
`padding_nodes` is zero. -/
def deserialize (I : SerInfo Op) (s : SerHugr Op Meta) : ReadResult Op Meta :=
  match s.nodes with
  | [] => .panic
  | (rootParent, rootOp) :: rest =>
    if rootParent ≠ 0 then .firstNodeNotRoot
    else if !I.isModule rootOp then .wrapped
    else match readNodes I.toOpInfo 1 rest (Hugr.new I.toOpInfo rootOp) with
    | none => .panic
    | some h1 =>
      match (match s.entrypoint with | none => some h1 | some e => h1.setEntrypoint e) with
      | none => .panic
      | some h2 => readEdges I s.edges (readMetadata 0 (s.metadata.getD []) h2)

end Verif.Graph
