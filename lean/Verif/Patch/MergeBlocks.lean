import Verif.Patch.CfgToDfg
import Verif.Patch.ReplaceApply

/-!
# Model of merging two basic blocks

Source: `/repo/hugr-passes/src/normalize_cfgs.rs`: `mk_rep` and the replacement that `merge_basic_blocks` applies with
it; `/repo/hugr-core/src/hugr.rs`: `make_module_hugr`, for control-flow graphs. What follows in the loop of
`merge_basic_blocks`, that the two dataflow graphs are inlined, is `InlineDFG` (see `InlineDfg`).
-/
namespace Verif.Patch

open Verif.Graph Verif.Ops Verif.Passes Verif.Validate

variable {Meta : Type}

/-- `add_node_with_parent`. -/
def addTo (idx parent : Nat) (op : Ops.Op) (g : Hugr Ops.Op Meta) : Option (Hugr Ops.Op Meta) :=
  g.addNodeWithParent opsInfo.toOpInfo idx parent op

/-- A loop of `connect`. -/
def connectEvery (ls : List Link) (g : Hugr Ops.Op Meta) : Option (Hugr Ops.Op Meta) := each (fun g l => g.connect l) g ls

/-- `make_module_hugr`, hugr.rs:446-537, for a control-flow graph. The indices are those that a new graph gives. -/
def newWithCfg (sig : Types.Signature) : Option (Hugr Ops.Op Meta) :=
  (addTo 1 0 (.funcDefn "main" ⟨[], sig⟩) (Hugr.new opsInfo.toOpInfo .module)).bind fun g =>
  (addTo 2 1 (.input sig.input) g).bind fun g =>
  (addTo 3 1 (.output sig.output) g).bind fun g =>
  (addTo 4 1 (.cfg sig) g).bind fun g =>
  (connectEvery ((List.range sig.input.length).map fun i => ⟨2, i, 4, i⟩) g).bind fun g =>
  (connectEvery ((List.range sig.output.length).map fun i => ⟨4, i, 3, i⟩) g).bind fun g => g.setEntrypoint 4

/-- What `mk_rep` looks at: the signature of the control-flow graph, and inputs, other outputs and variants of the two
blocks. -/
structure TwoBlocks where
  sig : Types.Signature
  pin : List Types.Ty
  pother : List Types.Ty
  prows : List (List Types.Ty)
  sin : List Types.Ty
  sother : List Types.Ty
  srows : List (List Types.Ty)

/-- The Hugr with the merged block, normalize_cfgs.rs:350-409: the block is 5, its input and output are 6 and 7, and the
dataflow graphs for the contents of the blocks are 8 and 9. `back` are the ports of edges from the second block to the
first. Simplification: no order edge is added, since the first dataflow graph always has an output (402). -/
def mergedHugr (T : TwoBlocks) (back : List Nat) : Option (Hugr Ops.Op Meta) :=
  (newWithCfg T.sig).bind fun g =>
  (addTo 5 4 (.dataflowBlock T.pin T.sother T.srows) g).bind fun g =>
  (addTo 6 5 (.input T.pin) g).bind fun g =>
  (addTo 7 5 (.output (sumOf T.srows :: T.sother)) g).bind fun g =>
  (addTo 8 5 (.dfg ⟨T.pin, sumOf T.prows :: T.pother⟩) g).bind fun g =>
  (connectEvery ((List.range T.pin.length).map fun i => ⟨6, i, 8, i⟩) g).bind fun g =>
  (addTo 9 5 (.dfg ⟨T.sin, sumOf T.srows :: T.sother⟩) g).bind fun g =>
  (connectEvery ((List.range (T.sother.length + 1)).map fun i => ⟨9, i, 7, i⟩) g).bind fun g =>
  (wireUnpackFirst g 10 ((List.range (T.pother.length + 1)).map fun i => (8, i)) [] 9).bind fun g =>
  connectEvery (back.map fun s => ⟨5, s, 5, 0⟩) g

/-- `all_linked_outputs`, hugr-core/src/hugr/views.rs. -/
def allLinkedOutputs (h : Hugr Ops.Op Meta) (n : Nat) : List (Nat × Nat) :=
  (List.range (h.ins n)).flatMap (h.linkedOutputs n)

/-- `mu_out`, normalize_cfgs.rs:423-442. -/
def leaving (h : Hugr Ops.Op Meta) (pred succ : Nat) : List Nat → Option (List NewEdge)
  | [] => some []
  | s :: ss =>
    match h.linkedInputs succ s with
    | [t] => (leaving h pred succ ss).map fun es => if t.1 = pred then es else ⟨5, t.1, .controlFlow s⟩ :: es
    | _ => none

/-- `mk_rep`, normalize_cfgs.rs:341-446. The adoptions are in a hash map there: their order does not matter. -/
def mkRep (h : Hugr Ops.Op Meta) (pred succ : Nat) : Option (Replacement Meta) :=
  match h.ops h.entrypoint, h.ops pred, h.ops succ with
  | .cfg sig, .dataflowBlock pin pother prows, .dataflowBlock sin sother srows =>
    let into := allLinkedOutputs h pred
    (mergedHugr ⟨sig, pin, pother, prows, sin, sother, srows⟩ ((into.filter fun s => s.1 = succ).map Prod.snd)).bind fun rep =>
    (leaving h pred succ (List.range (h.outs succ))).map fun out =>
    { removal := [pred, succ]
      replacement := rep
      adoptions := [(8, pred), (9, succ)]
      muInp := (into.filter fun s => s.1 ≠ succ).map fun s => ⟨s.1, 5, .controlFlow s.2⟩
      muOut := out
      muNew := [] }
  | _, _, _ => none

end Verif.Patch
