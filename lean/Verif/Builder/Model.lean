import Verif.Graph.SerializeOps
import Verif.Validate.Model

/-!
# Builders of dataflow graphs

Models hugr-core/src/builder/build_traits.rs (`Container`, `Dataflow` and `wire_up`) and `FunctionBuilder`,
`DFGBuilder` in hugr-core/src/builder/dataflow.rs. The extensions that a Hugr uses are left out. A new node gets the
lowest index that was never used: builders remove no nodes.
-/
namespace Verif.Builder

open Verif.Graph Verif.Ops Verif.Validate

variable {Meta : Type}

/-- `Wire`, hugr-core/src/core.rs: an outgoing port of a node. -/
abbrev Wire := Nat × Nat

/-- `BuilderWiringError`, builder.rs:228-260. -/
inductive WiringError where
  | noCopyLinear
  | noRelationIntergraph
  | nonCopyableIntergraph
  deriving DecidableEq

/-- What a call of a builder gives. -/
inductive Built (α : Type) where
  | ok (a : α)
  | error (e : WiringError)
  | panic

/-- The operator `?`. -/
def Built.bind {α β : Type} (r : Built α) (f : α → Built β) : Built β :=
  match r with
  | .ok a => f a
  | .error e => .error e
  | .panic => .panic

/-- A call that panics with `none`. -/
def ofOption {α : Type} : Option α → Built α
  | some a => .ok a
  | none => .panic

/-- `add_other_edge`, hugr/hugrmut.rs:534-545. -/
def addOtherEdge (h : Hugr Ops.Op Meta) (src dst : Nat) : Built (Hugr Ops.Op Meta) :=
  match (h.ops src).otherPort .outgoing, (h.ops dst).otherPort .incoming with
  | .ok (some p), .ok (some q) => ofOption (h.connect ⟨src, p, dst, q⟩)
  | _, _ => .panic

/-- `iter::successors(n, get_parent)`; `fuel` bounds the height of the hierarchy. -/
def ancestors (h : Hugr Ops.Op Meta) : Nat → Option Nat → List Nat
  | 0, _ => []
  | _, none => []
  | fuel + 1, some n => n :: ancestors h fuel (h.getParent n)

/-- `tuple_windows().find_map(…)`, build_traits.rs:806-813: the first one whose successor satisfies a condition. -/
def findWindow (f : Nat → Bool) : List Nat → Option Nat
  | a :: b :: rest => if f b then some a else findWindow f (b :: rest)
  | _ => none

/-- The ancestor of the target that has to come after the source, build_traits.rs:805-813. -/
def srcSibling (h : Hugr Ops.Op Meta) (src dst : Nat) : Option Nat :=
  findWindow (fun q => h.getParent src == some q || (h.getParent src).bind h.getParent == some q)
    (ancestors h (h.cap + 1) (h.getParent dst))

/-- `connect` and the value of `wire_up`, build_traits.rs:838-849, which panics if the target port has no kind. -/
def finishWire (h : Hugr Ops.Op Meta) (l : Link) : Built (Hugr Ops.Op Meta) :=
  match h.connect l with
  | none => .panic
  | some g =>
    match (g.ops l.dst).portKind .incoming l.dstPort with
    | .ok (some _) => .ok g
    | _ => .panic

/-- `wire_up` for a value from another graph, build_traits.rs:791-828. -/
def wireNonLocal (h : Hugr Ops.Op Meta) (l : Link) (t : Types.Ty) : Built (Hugr Ops.Op Meta) :=
  if !t.copyable then .error .nonCopyableIntergraph
  else if (h.getParent l.src).isNone then .panic
  else
    match srcSibling h l.src l.dst with
    | none => .error .noRelationIntergraph
    | some a =>
      if !OpTag.isSuperset .controlFlowChild (h.ops l.src).opTag && !OpTag.isSuperset .controlFlowChild (h.ops a).opTag then
        (addOtherEdge h l.src a).bind fun g => finishWire g l
      else finishWire h l

/-- `wire_up`, build_traits.rs:776-850. -/
def wireUp (h : Hugr Ops.Op Meta) (l : Link) : Built (Hugr Ops.Op Meta) :=
  match (h.ops l.src).portKind .outgoing l.srcPort with
  | .ok (some (.value t)) =>
    if h.getParent l.src ≠ h.getParent l.dst then wireNonLocal h l t
    else if !t.copyable && !(h.linkedInputs l.src l.srcPort).isEmpty then .error .noCopyLinear
    else finishWire h l
  | .ok (some _) => finishWire h l
  | _ => .panic

/-- `wire_up_inputs`, build_traits.rs:746-755: the wires, to the ports of `dst` from `port` on. -/
def wireUpInputs (dst : Nat) : Nat → List Wire → Hugr Ops.Op Meta → Built (Hugr Ops.Op Meta)
  | _, [], h => .ok h
  | port, w :: ws, h => (wireUp h ⟨w.1, w.2, dst, port⟩).bind fun g => wireUpInputs dst (port + 1) ws g

/-- `DFGBuilder`, dataflow.rs:20-25, without the count of outputs. -/
structure Builder (Meta : Type) where
  hugr : Hugr Ops.Op Meta
  node : Nat
  numIn : Nat

/-- `Dataflow::io`, build_traits.rs:176-183. -/
def Builder.io (b : Builder Meta) : Option (Nat × Nat) :=
  match b.hugr.children b.node with
  | i :: o :: _ => some (i, o)
  | _ => none

/-- `FunctionBuilder::new`, dataflow.rs:364-393, with `make_module_hugr`, hugr.rs:484-487, and `create_with_io`,
dataflow.rs:44-66. -/
def newFunction (name : String) (poly : Types.PolyFunc) : Built (Builder Meta) :=
  ofOption <|
    (run opsInfo.toOpInfo (Hugr.new opsInfo.toOpInfo .module)
      [.addNodeWithParent 1 0 (.funcDefn name poly), .setEntrypoint 1, .addNodeWithParent 2 1 (.input poly.body.input),
        .addNodeWithParent 3 1 (.output poly.body.output)]).map fun h => ⟨h, 1, poly.body.input.length⟩

/-- `add_node_with_wires`, build_traits.rs:722-738, with `add_child_node`, :53-63: `add_dataflow_op`, and `add_constant`
without wires. -/
def Builder.addNode (b : Builder Meta) (op : Ops.Op) (ws : List Wire) : Built (Builder Meta) :=
  match b.hugr.addNodeWithParent opsInfo.toOpInfo b.hugr.cap b.node op with
  | none => .panic
  | some h => (wireUpInputs b.hugr.cap 0 ws h).bind fun g => .ok { b with hugr := g }

/-- `set_order`, build_traits.rs:550-552, with `add_other_wire`, :70-73. -/
def Builder.setOrder (b : Builder Meta) (before after : Nat) : Built (Builder Meta) :=
  (addOtherEdge b.hugr before after).bind fun g => .ok { b with hugr := g }

/-- `set_outputs`, build_traits.rs:315-327. -/
def Builder.setOutputs (b : Builder Meta) (ws : List Wire) : Built (Builder Meta) :=
  match b.io with
  | none => .panic
  | some (_, o) => (wireUpInputs o 0 ws b.hugr).bind fun g => .ok { b with hugr := g }

/-- `update_parent_signature`, dataflow.rs:215-239. `none` if the operation is not supported. -/
def updateSignature (f : Types.Signature → Types.Signature) : Ops.Op → Option Ops.Op
  | .funcDefn name poly => some (.funcDefn name { poly with body := f poly.body })
  | .dfg sig => some (.dfg (f sig))
  | .dataflowBlock ins other rows => some (.dataflowBlock (f ⟨ins, other⟩).input (f ⟨ins, other⟩).output rows)
  | _ => none

/-- Moves the links of the outgoing port `p` of `n` to the port `p + 1`, dataflow.rs:126-139: `linked_inputs`,
`disconnect`, and `connect` in turn. -/
def shiftOrderOut (h : Hugr Ops.Op Meta) (n p : Nat) : Hugr Ops.Op Meta :=
  { h with links := h.links.filter (fun l => !l.at n .outgoing p) ++
      (h.linkedInputs n p).map fun t => ⟨n, p + 1, t.1, t.2⟩ }

/-- Moves the links of the incoming port `p` of `n` to the port `p + 1`, dataflow.rs:186-198. -/
def shiftOrderIn (h : Hugr Ops.Op Meta) (n p : Nat) : Hugr Ops.Op Meta :=
  { h with links := h.links.filter (fun l => !l.at n .incoming p) ++
      (h.linkedOutputs n p).map fun t => ⟨t.1, t.2, n, p + 1⟩ }

/-- What `add_input` and `add_output` give. -/
inductive Added (Meta : Type) where
  | ok (b : Builder Meta)
  | notSupported
  | panic

/-- `add_input`, dataflow.rs:101-144. -/
def Builder.addInput (b : Builder Meta) (t : Types.Ty) : Added Meta :=
  match b.io, updateSignature (fun s => ⟨s.input ++ [t], s.output⟩) (b.hugr.ops b.node) with
  | none, _ => .panic
  | _, none => .notSupported
  | some (i, _), some op =>
    match b.hugr.ops i with
    | .input ts =>
      let h := { b.hugr with ops := upd (upd b.hugr.ops b.node op) i (.input (ts ++ [t])) }
      match h.addPorts i .outgoing 1 with
      | some (g, (p, _)) => .ok ⟨shiftOrderOut g i (p - 1), b.node, b.numIn + 1⟩
      | none => .panic
    | _ => .panic

/-- `add_output`, dataflow.rs:157-207. -/
def Builder.addOutput (b : Builder Meta) (t : Types.Ty) : Added Meta :=
  match b.io, updateSignature (fun s => ⟨s.input, s.output ++ [t]⟩) (b.hugr.ops b.node) with
  | none, _ => .panic
  | _, none => .notSupported
  | some (_, o), some op =>
    match b.hugr.ops o with
    | .output ts =>
      let h := { b.hugr with ops := upd (upd b.hugr.ops b.node op) o (.output (ts ++ [t])) }
      match h.addPorts o .incoming 1 with
      | some (g, (p, _)) => .ok ⟨shiftOrderIn g o (p - 1), b.node, b.numIn⟩
      | none => .panic
    | _ => .panic

/-- `unwrap` on what `add_input` and `add_output` give. -/
def Added.unwrap : Added Meta → Built (Builder Meta)
  | .ok b => .ok b
  | _ => .panic

/-- The calls that build a function: `add_dataflow_op` or `add_constant`, `add_input`, `add_output` and `set_order`. -/
inductive Call where
  | node (op : Ops.Op) (wires : List Wire)
  | input (t : Types.Ty)
  | output (t : Types.Ty)
  | order (before after : Nat)

/-- One call. -/
def Builder.call (b : Builder Meta) : Call → Built (Builder Meta)
  | .node op ws => b.addNode op ws
  | .input t => (b.addInput t).unwrap
  | .output t => (b.addOutput t).unwrap
  | .order x y => b.setOrder x y

/-- A sequence of calls. -/
def Builder.calls (b : Builder Meta) : List Call → Built (Builder Meta)
  | [] => .ok b
  | c :: cs => (b.call c).bind fun b => b.calls cs

/-- A function that is built by calls and `set_outputs`. -/
structure Prog where
  name : String
  poly : Types.PolyFunc
  calls : List Call
  outs : List Wire

/-- Building a function, before it is validated. -/
def build (P : Prog) : Built (Builder Meta) :=
  (newFunction P.name P.poly).bind fun b => (b.calls P.calls).bind fun b => b.setOutputs P.outs

/-- What `finish_hugr_with_outputs` gives, build_traits.rs:859-867, with `finish_hugr`, dataflow.rs:259-264. -/
inductive Finished (Meta : Type) where
  | ok (h : Hugr Ops.Op Meta)
  | wiringError (e : WiringError)
  | invalid
  | panic

/-- Building a function and validating it. -/
def finish (C : Context) (P : Prog) : Finished Meta :=
  match build P with
  | .ok b =>
    match validate C b.hugr with
    | .ok => .ok b.hugr
    | .panic => .panic
    | _ => .invalid
  | .error e => .wiringError e
  | .panic => .panic

end Verif.Builder
