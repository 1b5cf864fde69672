import Verif.Graph.Insert
import Verif.Patch.InlineDfg

/-!
# Replacing a subgraph by another one

Models hugr-core/src/hugr/patch/simple_replace.rs, and of hugr-core/src/hugr/views/sibling_subgraph.rs
what it uses. Panics are `none`, or the outcome `panic`. `debug_assert!`s are not modelled.
-/
namespace Verif.Patch

open Verif.Graph Verif.Ops Verif.Passes

variable {Meta : Type}

/-- `SiblingSubgraph`, sibling_subgraph.rs:57-88. -/
structure Subgraph where
  nodes : List Nat
  inputs : List (List (Nat × Nat))
  outputs : List (Nat × Nat)
  functionCalls : List (List (Nat × Nat)) := []

/-- `SiblingSubgraph::get_parent`, sibling_subgraph.rs:565-567. -/
def Subgraph.getParent (s : Subgraph) (h : Hugr Ops.Op Meta) : Option Nat :=
  match s.nodes with
  | [] => none
  | n :: _ => h.getParent n

/-- The type of a value port: `signature(n).port_type(p)`. -/
def portType (h : Hugr Ops.Op Meta) (n : Nat) (dir : Ops.Dir) (port : Nat) : Option Types.Ty :=
  match (h.ops n).dataflowSignature with
  | .ok (some sig) => (match dir with | .incoming => sig.input | .outgoing => sig.output)[port]?
  | _ => none

/-- Collects lists; `none` if one of them is missing. -/
def collect {α β : Type} (f : α → Option (List β)) : List α → Option (List β)
  | [] => some []
  | x :: xs =>
    match f x, collect f xs with
    | some ys, some zs => some (ys ++ zs)
    | _, _ => none

/-- The type of an input of a subgraph. -/
def partType (h : Hugr Ops.Op Meta) : List (Nat × Nat) → Option Types.Ty
  | [] => none
  | (n, p) :: _ => portType h n .incoming p

/-- `SiblingSubgraph::signature`, sibling_subgraph.rs:543-562. -/
def Subgraph.signature (s : Subgraph) (h : Hugr Ops.Op Meta) : Option Types.Signature :=
  match collect (fun part => (partType h part).map fun t => [t]) s.inputs,
    collect (fun np => (portType h np.1 .outgoing np.2).map fun t => [t]) s.outputs with
  | some ins, some outs => some ⟨ins, outs⟩
  | _, _ => none

/-- What `SimpleReplacement::try_new` answers, simple_replace.rs:50-73. -/
inductive NewReplacement where
  | ok
  | invalidDataflowGraph
  | invalidSignature
  | panic
  deriving DecidableEq

/-- `SimpleReplacement::try_new`, simple_replace.rs:50-73. -/
def tryNew (s : Subgraph) (host repl : Hugr Ops.Op Meta) : NewReplacement :=
  match s.signature host with
  | none => .panic
  | some sig =>
    match (repl.ops repl.entrypoint).innerSignature with
    | none => .invalidDataflowGraph
    | some sig' => if sig = sig' then .ok else .invalidSignature

/-- What `is_valid_rewrite` answers, simple_replace.rs:94-113. -/
inductive RewriteCheck where
  | ok (parent : Nat)
  | invalidParentNode
  | invalidRemovedNode
  | panic
  deriving DecidableEq

/-- `SimpleReplacement::is_valid_rewrite`, simple_replace.rs:94-113. -/
def isValidRewrite (s : Subgraph) (h : Hugr Ops.Op Meta) : RewriteCheck :=
  match s.getParent h with
  | none => .panic
  | some parent =>
    if OpTag.isSuperset .dataflowParent (h.ops parent).opTag then
      if s.nodes.all fun n => decide (h.getParent n = some parent) && (h.children n).isEmpty then
        .ok parent
      else .invalidRemovedNode
    else .invalidParentNode

/-- `BoundaryPort`: a port of the host or of the replacement, hugr-core/src/hugr/patch/port_types.rs. -/
inductive BPort where
  | host (n p : Nat)
  | repl (n p : Nat)
  deriving DecidableEq

/-- The port of the host that feeds an input of the subgraph, simple_replace.rs:317-324. -/
def inputSource (host : Hugr Ops.Op Meta) : List (Nat × Nat) → Option (Nat × Nat)
  | [] => none
  | (n, p) :: _ => singleLinkedOutput host n p

/-- `linked_replacement_output_by_position`, simple_replace.rs:154-180, with `SnapToHost`. -/
def outputSource (s : Subgraph) (host repl : Hugr Ops.Op Meta) (i o pos : Nat) : Option BPort :=
  match singleLinkedOutput repl o pos with
  | none => none
  | some (x, xp) =>
    if x = i then
      match s.inputs[xp]? with
      | none => none
      | some part => (inputSource host part).map fun np => .host np.1 np.2
    else some (.repl x xp)

/-- `incoming_boundary`, simple_replace.rs:305-337, for one input: the ports of the replacement that
its input feeds, without those of its output. -/
def incomingAt (s : Subgraph) (host repl : Hugr Ops.Op Meta) (i o : Nat)
    (part : List (Nat × Nat) × Nat) : Option (List (BPort × BPort)) :=
  match inputSource host part.1 with
  | none => none
  | some (n, p) =>
    if (repl.linkedInputs i part.2).all fun t => t.1 ≠ o || decide (t.2 < s.outputs.length) then
      some (((repl.linkedInputs i part.2).filter fun t => t.1 ≠ o).map fun t =>
        (.host n p, .repl t.1 t.2))
    else none

/-- `outgoing_boundary`, simple_replace.rs:351-382, for one output: from its source in the
replacement, if it has one, to the ports of the host that the subgraph feeds. -/
def outgoingAt (s : Subgraph) (host repl : Hugr Ops.Op Meta) (i o : Nat)
    (np : (Nat × Nat) × Nat) : Option (List (BPort × BPort)) :=
  match outputSource s host repl i o np.2 with
  | none => none
  | some (.repl x xp) =>
    some ((host.linkedInputs np.1.1 np.1.2).map fun t => (.repl x xp, .host t.1 t.2))
  | some (.host ..) => some []

/-- `host_to_host_boundary`, simple_replace.rs:398-432, for one output. -/
def hostToHostAt (s : Subgraph) (host repl : Hugr Ops.Op Meta) (i o : Nat)
    (np : (Nat × Nat) × Nat) : Option (List (BPort × BPort)) :=
  match outputSource s host repl i o np.2 with
  | none => none
  | some (.host x xp) =>
    some ((host.linkedInputs np.1.1 np.1.2).map fun t => (.host x xp, .host t.1 t.2))
  | some (.repl ..) => some []

/-- `all_boundary_edges`, simple_replace.rs:485-507. -/
def allBoundaryEdges (s : Subgraph) (host repl : Hugr Ops.Op Meta) (i o : Nat) :
    Option (List (BPort × BPort)) :=
  match collect (incomingAt s host repl i o) s.inputs.zipIdx,
    collect (outgoingAt s host repl i o) s.outputs.zipIdx,
    collect (hostToHostAt s host repl i o) s.outputs.zipIdx with
  | some a, some b, some c => some (a ++ b ++ c)
  | _, _, _ => none

/-- `BoundaryPort::map_replacement`, hugr-core/src/hugr/patch/port_types.rs: indexes the map. -/
def BPort.resolve (map : List (Nat × Nat)) : BPort → Option (Nat × Nat)
  | .host n p => some (n, p)
  | .repl n p => (map.lookup n).map fun m => (m, p)

/-- Step 3, simple_replace.rs:631-636, for one edge. -/
def connectBoundary (map : List (Nat × Nat)) (h : Hugr Ops.Op Meta) (e : BPort × BPort) :
    Option (Hugr Ops.Op Meta) :=
  match e.1.resolve map, e.2.resolve map with
  | some (n, p), some (m, q) => h.connect ⟨n, p, m, q⟩
  | _, _ => none

/-- Step 2, simple_replace.rs:609-629: the replacement is inserted and unpacked. `news` are the
indices that the graph gives to the new nodes. -/
def unpackReplacement (h repl : Hugr Ops.Op Meta) (parent i o : Nat) (news : List Nat) :
    Option (Hugr Ops.Op Meta × List (Nat × Nat)) :=
  match h.insertRegion opsInfo.toOpInfo parent repl repl.entrypoint news with
  | .done h1 map =>
    match map.lookup i, map.lookup o, map.lookup repl.entrypoint with
    | some i', some o', some e' =>
      match h1.removeNode opsInfo.toOpInfo i' with
      | none => none
      | some h2 =>
        match h2.removeNode opsInfo.toOpInfo o' with
        | none => none
        | some h3 =>
          match each (fun g c => g.setParent c parent) h3 (h3.children e') with
          | none => none
          | some h4 =>
            match h4.removeNode opsInfo.toOpInfo e' with
            | none => none
            | some h5 =>
              some (h5, map.filter fun e => e.1 ≠ i && e.1 ≠ o && e.1 ≠ repl.entrypoint)
    | _, _, _ => none
  | _ => none

/-- The outcome of `SimpleReplacement`; with the map of the nodes. -/
inductive Replacing (Meta : Type) where
  | ok (h : Hugr Ops.Op Meta) (map : List (Nat × Nat))
  | invalidParentNode
  | invalidRemovedNode
  | panic

/-- `SimpleReplacement::apply_hugr_mut` after the check, simple_replace.rs:583-649. -/
def replaceApply (s : Subgraph) (h repl : Hugr Ops.Op Meta) (parent : Nat) (news : List Nat) :
    Option (Hugr Ops.Op Meta × List (Nat × Nat)) :=
  match getIo repl repl.entrypoint with
  | none => none
  | some (i, o) =>
    match allBoundaryEdges s h repl i o with
    | none => none
    | some edges =>
      match unpackReplacement h repl parent i o news with
      | none => none
      | some (h1, map) =>
        match each (connectBoundary map) h1 edges with
        | none => none
        | some h2 =>
          match each (fun g n => g.removeNode opsInfo.toOpInfo n) h2 s.nodes with
          | none => none
          | some h3 => some (h3, map)

/-- `SimpleReplacement::apply_hugr_mut`, simple_replace.rs:583-649. -/
def simpleReplace (s : Subgraph) (h repl : Hugr Ops.Op Meta) (news : List Nat) : Replacing Meta :=
  match isValidRewrite s h with
  | .panic => .panic
  | .invalidParentNode => .invalidParentNode
  | .invalidRemovedNode => .invalidRemovedNode
  | .ok parent =>
    match replaceApply s h repl parent news with
    | none => .panic
    | some (g, map) => .ok g map

end Verif.Patch
