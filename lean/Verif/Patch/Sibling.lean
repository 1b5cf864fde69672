import Verif.Patch.SimpleReplace
import Verif.Passes.Dfs
import Mathlib.Data.List.Dedup

/-!
# Subgraphs of a region

Models hugr-core/src/hugr/views/sibling_subgraph.rs: which subgraphs the constructors of `SiblingSubgraph`
accept, and what they make of them. Errors are given without their data. The library `portgraph` is
modelled by its documentation: the nodes between the ports of a boundary, and which sets of nodes are
convex. Nodes are assumed to be in the graph.
-/
namespace Verif.Patch

open Verif.Graph Verif.Ops Verif.Passes

variable {Meta : Type}

/-- `InvalidSubgraph` and `InvalidSubgraphBoundary`, sibling_subgraph.rs:1421-1489. -/
inductive SubgraphError where
  | notConvex
  | noSharedParent
  | orphanNode
  | emptySubgraph
  | invalidNodeSet
  | unsupportedEdgeKind
  | portNodeNotInSet
  | disconnectedBoundaryPort
  | nonUniqueInput
  | emptyPartition
  | mismatchedOutputPort
  | mismatchedTypes
  deriving DecidableEq

/-- The outcome of a constructor. -/
inductive Checked (α : Type) where
  | ok (a : α)
  | err (e : SubgraphError)
  | panic
  deriving DecidableEq

/-- A port of a node, of either direction. -/
structure AnyPort where
  node : Nat
  dir : Ops.Dir
  port : Nat
  deriving DecidableEq

/-- `iter_incoming`, sibling_subgraph.rs:887-891, as ports. -/
def incomingPorts (inputs : List (List (Nat × Nat))) : List AnyPort :=
  inputs.flatten.map fun np => ⟨np.1, .incoming, np.2⟩

/-- `iter_outgoing`, sibling_subgraph.rs:894-898, as ports. -/
def outgoingPorts (outputs : List (Nat × Nat)) : List AnyPort :=
  outputs.map fun np => ⟨np.1, .outgoing, np.2⟩

/-- `iter_io`, sibling_subgraph.rs:901-908. -/
def iterIo (inputs : List (List (Nat × Nat))) (outputs : List (Nat × Nat)) : List AnyPort :=
  incomingPorts inputs ++ outgoingPorts outputs

/-- The nodes that `linked_ports` gives, hugr-core/src/hugr/views.rs:203-207. -/
def linkedNodes (h : Hugr Ops.Op Meta) (q : AnyPort) : List Nat :=
  match q.dir with
  | .incoming => (h.linkedOutputs q.node q.port).map Prod.fst
  | .outgoing => (h.linkedInputs q.node q.port).map Prod.fst

/-- Whether an optional index of a port is this one. A `Tag` with an invalid tag panics here; not modelled. -/
def portIs : Run (Option Nat) → Nat → Bool
  | .ok (some q), p => q == p
  | _, _ => false

/-- `is_non_value_edge`, sibling_subgraph.rs:1375-1380. -/
def isNonValueEdge (h : Hugr Ops.Op Meta) (q : AnyPort) : Bool :=
  (portIs ((h.ops q.node).otherPort q.dir) q.port && !(linkedNodes h q).isEmpty) ||
    (portIs ((h.ops q.node).staticPort q.dir) q.port && !(linkedNodes h q).isEmpty)

/-- All the incoming ports of the nodes. -/
def nodeInputs (h : Hugr Ops.Op Meta) (nodes : List Nat) : List (Nat × Nat) :=
  nodes.flatMap fun n => (List.range (h.ins n)).map fun p => (n, p)

/-- All the outgoing ports of the nodes. -/
def nodeOutputs (h : Hugr Ops.Op Meta) (nodes : List Nat) : List (Nat × Nat) :=
  nodes.flatMap fun n => (List.range (h.outs n)).map fun p => (n, p)

/-- Some node that the port is linked to is not in the set. -/
def linkedOutside (h : Hugr Ops.Op Meta) (nodes : List Nat) (q : AnyPort) : Bool :=
  (linkedNodes h q).any fun m => m ∉ nodes

/-- The other ports of an input have the same source, sibling_subgraph.rs:1261-1276. -/
def checkPart (h : Hugr Ops.Op Meta) (source : Nat × Nat) : List (Nat × Nat) → Checked Unit
  | [] => .ok ()
  | (n, p) :: rest =>
    match singleLinkedOutput h n p with
    | none => .panic
    | some s => if s = source then checkPart h source rest else .err .mismatchedOutputPort

/-- No input is empty, and each has one source, sibling_subgraph.rs:1255-1277. -/
def checkParts (h : Hugr Ops.Op Meta) : List (List (Nat × Nat)) → Checked Unit
  | [] => .ok ()
  | [] :: _ => .err .emptyPartition
  | ((n, p) :: part) :: parts =>
    match singleLinkedOutput h n p with
    | none => .panic
    | some source =>
      match checkPart h source ((n, p) :: part) with
      | .ok () => checkParts h parts
      | e => e

/-- `get_edge_type`, sibling_subgraph.rs:1158-1171, for incoming ports. -/
def edgeType (h : Hugr Ops.Op Meta) : List (Nat × Nat) → Option Types.Ty
  | [] => none
  | (n, p) :: rest =>
    match portType h n .incoming p with
    | none => none
    | some t => if rest.all fun np => portType h np.1 .incoming np.2 = some t then some t else none

/-- The types of an input do, sibling_subgraph.rs:1281-1287. -/
def partTypeOk (h : Hugr Ops.Op Meta) (part : List (Nat × Nat)) : Bool :=
  match edgeType h part with
  | none => false
  | some t => decide (part.length ≤ 1) || t.copyable

/-- A group of function calls, sibling_subgraph.rs:1294-1309. -/
def callsOk (h : Hugr Ops.Op Meta) : List (Nat × Nat) → Bool
  | [] => true
  | np :: rest =>
    (rest.all fun c => decide (singleLinkedOutput h c.1 c.2 = singleLinkedOutput h np.1 np.2)) &&
      (np :: rest).all fun c => portIs ((h.ops c.1).staticPort .incoming) c.2

/-- `validate_subgraph`, sibling_subgraph.rs:1179-1312. -/
def validateSubgraph (h : Hugr Ops.Op Meta) (nodes : List Nat) (inputs : List (List (Nat × Nat)))
    (outputs : List (Nat × Nat)) (calls : List (List (Nat × Nat))) : Checked Unit :=
  match nodes with
  | [] => .err .emptySubgraph
  | first :: rest =>
    if rest.all fun n => decide (h.getParent n = h.getParent first) then
      if (iterIo inputs outputs).any (isNonValueEdge h) then .err .unsupportedEdgeKind
      else if (iterIo inputs outputs).any fun q => q.node ∉ nodes then .err .portNodeNotInSet
      else if (iterIo inputs outputs).any fun q => !linkedOutside h nodes q then .err .disconnectedBoundaryPort
      else if ((nodeInputs h nodes).filter fun np => linkedOutside h nodes ⟨np.1, .incoming, np.2⟩).any fun np =>
        !(inputs ++ calls).any fun nps => np ∈ nps then .err .notConvex
      else if (nodeOutputs h nodes).any fun np =>
        linkedOutside h nodes ⟨np.1, .outgoing, np.2⟩ && np ∉ outputs then .err .notConvex
      else if inputs.flatten.Nodup then
        match checkParts h inputs with
        | .ok () =>
          if inputs.all (partTypeOk h) then
            if calls.all (callsOk h) then .ok () else .err .unsupportedEdgeKind
          else .err .mismatchedTypes
        | e => e
      else .err .nonUniqueInput
    else
      match h.getParent first with
      | none => .err .orphanNode
      | some p =>
        match (first :: rest).find? fun n => h.getParent n ≠ some p with
        | none => .panic
        | some other => if (h.getParent other).isSome then .err .noSharedParent else .err .orphanNode

/-! ## Boundaries -/

/-- The nodes, each once, in the order of their first occurrence: `retain` with a set,
sibling_subgraph.rs:771-772. -/
def firstOccurrences (nodes : List Nat) : List Nat := nodes.reverse.dedup.reverse

/-- The linked incoming ports of the nodes. -/
def linkedIn (h : Hugr Ops.Op Meta) (nodes : List Nat) : List (Nat × Nat) :=
  (nodeInputs h nodes).filter fun np => !(linkedNodes h ⟨np.1, .incoming, np.2⟩).isEmpty

/-- The inputs of `get_boundary_from_nodes`, sibling_subgraph.rs:781-791: the ports that are linked to a
node outside of the set. `none` if a port has several links. -/
def boundaryInputs (h : Hugr Ops.Op Meta) (nodes : List Nat) : Option (List (List (Nat × Nat))) :=
  if (linkedIn h nodes).all fun np => (singleLinkedOutput h np.1 np.2).isSome then
    some (((linkedIn h nodes).filter fun np => linkedOutside h nodes ⟨np.1, .incoming, np.2⟩).map fun np => [np])
  else none

/-- The outputs of `get_boundary_from_nodes`, sibling_subgraph.rs:792-797. -/
def boundaryOutputs (h : Hugr Ops.Op Meta) (nodes : List Nat) : List (Nat × Nat) :=
  (nodeOutputs h nodes).filter fun np => linkedOutside h nodes ⟨np.1, .outgoing, np.2⟩

/-- Whether the port is the static input of a call or of the loading of a function:
sibling_subgraph.rs:812-817, 849-857. -/
def isFunctionPort (h : Hugr Ops.Op Meta) (np : Nat × Nat) : Bool :=
  portIs ((h.ops np.1).staticPort .incoming) np.2 &&
    match (h.ops np.1).staticInput with
    | some (.function _) => true
    | _ => false

/-- Whether an input is drained by `drain_function_calls`, sibling_subgraph.rs:808-823. -/
def isCallPart (h : Hugr Ops.Op Meta) : List (Nat × Nat) → Bool
  | [] => false
  | np :: _ => isFunctionPort h np

/-- The order of ports. -/
def portLe (a b : Nat × Nat) : Bool := decide (a.1 < b.1) || (decide (a.1 = b.1) && decide (a.2 ≤ b.2))

/-- `group_into_function_calls`, sibling_subgraph.rs:834-866, after the check. -/
def groupCalls (h : Hugr Ops.Op Meta) (ports : List (Nat × Nat)) : List (List (Nat × Nat)) :=
  (((ports.filterMap fun np => singleLinkedOutput h np.1 np.2).dedup).mergeSort portLe).map fun source =>
    ports.filter fun np => singleLinkedOutput h np.1 np.2 = some source

/-- `drain_function_calls`, sibling_subgraph.rs:803-828: the other inputs, and the calls. `none` if a port
is no function port, or has not one link. -/
def drainFunctionCalls (h : Hugr Ops.Op Meta) (inputs : List (List (Nat × Nat))) :
    Option (List (List (Nat × Nat)) × List (List (Nat × Nat))) :=
  if (inputs.filter (isCallPart h)).flatten.all fun np =>
    isFunctionPort h np && (singleLinkedOutput h np.1 np.2).isSome then
    some (inputs.filter fun part => !isCallPart h part, groupCalls h (inputs.filter (isCallPart h)).flatten)
  else none

/-! ## `portgraph` -/

/-- The nodes that `n` is linked to in the region, by links that are not at a port of the boundary. -/
def neighbours (h : Hugr Ops.Op Meta) (region : Nat) (inputs : List (List (Nat × Nat)))
    (outputs : List (Nat × Nat)) (n : Nat) : List Nat :=
  if n ∈ h.children region then
    (((h.links.filter fun l => l.src = n && (l.src, l.srcPort) ∉ outputs && (l.dst, l.dstPort) ∉ inputs.flatten).map
        Link.dst) ++
      (h.links.filter fun l => l.dst = n && (l.src, l.srcPort) ∉ outputs && (l.dst, l.dstPort) ∉ inputs.flatten).map
        Link.src).filter fun m => m ∈ h.children region
  else []

/-- The nodes of the ports of the boundary. -/
def boundaryNodes (inputs : List (List (Nat × Nat))) (outputs : List (Nat × Nat)) : List Nat :=
  (iterIo inputs outputs).map AnyPort.node

/-- The region of a boundary: that of the first of its nodes, sibling_subgraph.rs:741-750. -/
def boundaryRegion (h : Hugr Ops.Op Meta) (inputs : List (List (Nat × Nat))) (outputs : List (Nat × Nat)) : Nat :=
  match boundaryNodes inputs outputs with
  | [] => h.entrypoint
  | n :: _ => (h.getParent n).getD h.entrypoint

/-- The nodes of `make_pg_subgraph`, sibling_subgraph.rs:732-760: all that is connected with a node of the
boundary without crossing it; all nodes of the region if there is no boundary. -/
def innerNodes (h : Hugr Ops.Op Meta) (inputs : List (List (Nat × Nat))) (outputs : List (Nat × Nat)) : List Nat :=
  match boundaryNodes inputs outputs with
  | [] => h.children (boundaryRegion h inputs outputs)
  | n :: ns =>
    dfs (neighbours h (boundaryRegion h inputs outputs) inputs outputs)
      (dfsFuel (neighbours h (boundaryRegion h inputs outputs) inputs outputs)
        ((n :: ns).dedup ++ (h.children (boundaryRegion h inputs outputs)).filter (· ∉ n :: ns)) (n :: ns)) [] (n :: ns)

/-- The nodes of the region that links lead to from `n`. -/
def followers (h : Hugr Ops.Op Meta) (region n : Nat) : List Nat :=
  if n ∈ h.children region then
    ((h.links.filter fun l => l.src = n).map Link.dst).filter fun m => m ∈ h.children region
  else []

/-- The nodes of the region that can be reached from some nodes. -/
def reachedFrom (h : Hugr Ops.Op Meta) (region : Nat) (start : List Nat) : List Nat :=
  dfs (followers h region) (dfsFuel (followers h region) (h.children region) start) [] start

/-- Whether a set of nodes of the region is convex: no way leads out of it and back. -/
def isConvex (h : Hugr Ops.Op Meta) (region : Nat) (nodes : List Nat) : Bool :=
  (reachedFrom h region nodes).all fun b => decide (b ∈ nodes) ||
    (reachedFrom h region [b]).all fun c => c ∉ nodes

/-! ## Constructors -/

/-- `SiblingSubgraph::try_new_with_checker`, sibling_subgraph.rs:238-266, with a checker for `region`. -/
def tryNewWithChecker (h : Hugr Ops.Op Meta) (region : Nat) (inputs : List (List (Nat × Nat)))
    (outputs : List (Nat × Nat)) : Checked Subgraph :=
  match drainFunctionCalls h inputs with
  | none => .panic
  | some (rest, calls) =>
    match validateSubgraph h (innerNodes h inputs outputs) rest outputs calls with
    | .ok () =>
      if 1 < (innerNodes h inputs outputs).length && !isConvex h region (innerNodes h inputs outputs) then
        .err .notConvex
      else .ok ⟨innerNodes h inputs outputs, rest, outputs, calls⟩
    | .err e => .err e
    | .panic => .panic

/-- `SiblingSubgraph::try_new`, sibling_subgraph.rs:189-197, with `pick_parent`, 919-937. -/
def trySubgraph (h : Hugr Ops.Op Meta) (inputs : List (List (Nat × Nat))) (outputs : List (Nat × Nat)) :
    Checked Subgraph :=
  match boundaryNodes inputs outputs with
  | [] => .err .emptySubgraph
  | n :: _ =>
    match h.getParent n with
    | none => .err .orphanNode
    | some region => tryNewWithChecker h region inputs outputs

/-- `SiblingSubgraph::try_from_nodes`, sibling_subgraph.rs:281-344. -/
def tryFromNodes (h : Hugr Ops.Op Meta) (nodes : List Nat) : Checked Subgraph :=
  match nodes with
  | [] => .err .emptySubgraph
  | n :: _ =>
    match h.getParent n with
    | none => .err .orphanNode
    | some region =>
      match boundaryInputs h (firstOccurrences nodes) with
      | none => .panic
      | some inputs =>
        if inputs = [] && boundaryOutputs h (firstOccurrences nodes) = [] then
          .ok ⟨firstOccurrences nodes, [], [], []⟩
        else
          match tryNewWithChecker h region inputs (boundaryOutputs h (firstOccurrences nodes)) with
          | .ok s => if s.nodes.length < nodes.length then .ok { s with nodes := firstOccurrences nodes } else .ok s
          | e => e

/-- `SiblingSubgraph::validate`, sibling_subgraph.rs:464-508, with a new checker. -/
def Subgraph.validate (h : Hugr Ops.Op Meta) (s : Subgraph) : Checked Unit :=
  if (innerNodes h s.inputs s.outputs).isPerm s.nodes then
    match validateSubgraph h s.nodes s.inputs s.outputs s.functionCalls with
    | .ok () =>
      match s.getParent h with
      | none => .panic
      | some region =>
        if isConvex h region (innerNodes h s.inputs s.outputs) then .ok () else .err .notConvex
    | e => e
  else .err .invalidNodeSet

end Verif.Patch
