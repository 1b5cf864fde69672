import Verif.Patch.CfgToDfg
import Verif.Patch.InlineDfg

/-!
# Model of moving blocks out of a control-flow graph

Source: `/repo/hugr-passes/src/normalize_cfgs.rs`, the parts of `normalize_cfg` that move the entry block before
the control-flow graph and the block before the exit after it. Merging blocks is not modelled.
-/
namespace Verif.Patch

open Verif.Graph Verif.Ops Verif.Passes Verif.Validate

variable {Meta : Type}

/-- `ancestor_block`, normalize_cfgs.rs:172-180. `fuel` bounds the height. -/
def ancestorBlock (h : Hugr Ops.Op Meta) (G : Nat) : Nat → Nat → Option Nat
  | 0, _ => none
  | fuel + 1, n =>
    match h.getParent n with
    | none => none
    | some p => if p = G then some n else ancestorBlock h G fuel p

/-! ## The block before the exit -/

/-- The block that is moved after the control-flow graph, normalize_cfgs.rs:277-284. -/
def exitPred (h : Hugr Ops.Op Meta) (G exit : Nat) : Option Nat :=
  match inputNeighbours h exit with
  | [pred] =>
    if (outputNeighbours h pred).length = 1 ∧
        ((h.children pred).flatMap (inputNeighbours h)).all (fun src =>
          match ancestorBlock h G h.cap src with
          | none => true
          | some b => b == pred) = true
    then some pred else none
  | _ => none

/-- One output of the control-flow graph, normalize_cfgs.rs:322-328. -/
def moveOut (G dfg : Nat) (h : Hugr Ops.Op Meta) (p : Nat) : Option (Hugr Ops.Op Meta) :=
  match h.disconnect G .outgoing p with
  | none => none
  | some h1 => each (fun g (t : Nat × Nat) => g.connect ⟨dfg, p, t.1, t.2⟩) h1 (h.linkedInputs G p)

/-- The links of the control-flow graph and of the new dataflow graph, normalize_cfgs.rs:321-331. -/
def moveLinks (h : Hugr Ops.Op Meta) (G dfg : Nat) : Option (Hugr Ops.Op Meta) :=
  match each (moveOut G dfg) h (List.range (h.outs G)) with
  | none => none
  | some h1 => each (fun g p => g.connect ⟨G, p, dfg, p⟩) h1 (List.range (h1.ins dfg))

/-- The block `pred` becomes the exit, normalize_cfgs.rs:291-308. `G` is the control-flow graph. -/
def newExit (h : Hugr Ops.Op Meta) (G pred exit : Nat) (sig : Types.Signature) (ins : List Types.Ty) :
    Option (Hugr Ops.Op Meta) :=
  match h.replaceOp G (.cfg ⟨sig.input, ins⟩) with
  | none => none
  | some (h1, _) =>
    match h1.addPorts G .outgoing ((ins.length : Int) - sig.output.length) with
    | none => none
    | some (h2, _) =>
      match h2.replaceOp pred (.exitBlock ins) with
      | none => none
      | some (h3, _) =>
        match h3.setNumPorts pred 1 0 with
        | none => none
        | some h4 =>
          match h4.moveBeforeSibling pred exit with
          | none => none
          | some h5 => h5.removeNode opsInfo.toOpInfo exit

/-- The block `pred` before the exit goes into a dataflow graph `dfg` after the control-flow graph,
normalize_cfgs.rs:287-332. `dfg` and `w` are the indices of the new nodes. -/
def exitOut (h : Hugr Ops.Op Meta) (G pred exit dfg w : Nat) : Option (Hugr Ops.Op Meta) :=
  match h.ops G, getIo h pred, h.ops pred, h.getParent G with
  | .cfg sig, some (_, output), .dataflowBlock ins _ _, some parent =>
    match newExit h G pred exit sig ins with
    | none => none
    | some h1 =>
      match h1.addNodeWithParent opsInfo.toOpInfo dfg parent (.dfg ⟨ins, sig.output⟩) with
      | none => none
      | some h2 =>
        match each (fun g c => g.setParent c dfg) h2 (h2.children pred) with
        | none => none
        | some h3 =>
          match unpackBeforeOutput h3 w output sig.output with
          | none => none
          | some h4 => moveLinks h4 G dfg
  | _, _, _, _ => none

/-! ## The entry block -/

/-- Whether one of the nodes is outside the block `E`, normalize_cfgs.rs:227-230. -/
def anyOutside (h : Hugr Ops.Op Meta) (G E : Nat) : List Nat → Option Bool
  | [] => some false
  | s :: ss =>
    match ancestorBlock h G h.cap s with
    | none => none
    | some b => if b ≠ E then some true else anyOutside h G E ss

/-- The nodes that are used in other blocks, normalize_cfgs.rs:224-232. -/
def usedOutside (h : Hugr Ops.Op Meta) (G E : Nat) : List Nat → Option (List Nat)
  | [] => some []
  | n :: ns =>
    match anyOutside h G E (outputNeighbours h n), usedOutside h G E ns with
    | some b, some rest => some (if b then n :: rest else rest)
    | _, _ => none

/-- One input of the control-flow graph, normalize_cfgs.rs:250-255. -/
def moveIn (G dfg : Nat) (h : Hugr Ops.Op Meta) (p : Nat) : Option (Hugr Ops.Op Meta) :=
  match each (fun g (s : Nat × Nat) => g.connect ⟨s.1, s.2, dfg, p⟩) h (h.linkedOutputs G p) with
  | none => none
  | some h1 => h1.disconnect G .incoming p

/-- The links of the control-flow graph and of the new dataflow graph, normalize_cfgs.rs:249-266. -/
def moveInLinks (h : Hugr Ops.Op Meta) (G dfg : Nat) (sig : Types.Signature) (ins : List Types.Ty) :
    Option (Hugr Ops.Op Meta) :=
  match each (moveIn G dfg) h (List.range (h.ins G)) with
  | none => none
  | some h1 =>
    match h1.replaceOp G (.cfg ⟨ins, sig.output⟩) with
    | none => none
    | some (h2, _) =>
      match h2.addPorts G .incoming ((ins.length : Int) - sig.input.length) with
      | none => none
      | some (h3, _) => each (fun g p => g.connect ⟨dfg, p, G, p⟩) h3 (List.range (h3.outs dfg))

/-- The contents of the block `E` go into a dataflow graph `dfg` before the control-flow graph, and `succ` becomes the entry
block, normalize_cfgs.rs:233-266. `dfg` and `w` are the indices of the new nodes, and `parent` is where the control-flow
graph is. -/
def entryBefore (h : Hugr Ops.Op Meta) (G E succ dfg w parent : Nat) (sig : Types.Signature) (blk ins : List Types.Ty) :
    Option (Hugr Ops.Op Meta) :=
  match h.addNodeWithParent opsInfo.toOpInfo dfg parent (.dfg ⟨blk, ins⟩), getIo h E with
  | some h1, some (_, output) =>
    match each (fun g c => g.setParent c dfg) h1 (h1.children E) with
    | none => none
    | some h2 =>
      match h2.moveBeforeSibling succ E with
      | none => none
      | some h3 =>
        match h3.removeNode opsInfo.toOpInfo E with
        | none => none
        | some h4 =>
          match unpackBeforeOutput h4 w output ins with
          | none => none
          | some h5 => moveInLinks h5 G dfg sig ins
  | _, _ => none

/-- The block `E` goes before the control-flow graph; `succ` becomes the entry block, normalize_cfgs.rs:221-273.
`dfg` and `w` are the indices of the new nodes. -/
def entryOut (h : Hugr Ops.Op Meta) (G E succ dfg w : Nat) : Option (Hugr Ops.Op Meta) :=
  match h.ops G, h.ops E, (h.ops E).successorInput 0, h.getParent G with
  | .cfg sig, .dataflowBlock blk _ _, some ins, some parent =>
    match usedOutside h G E (h.children E) with
    | none => none
    | some srcs =>
      match entryBefore h G E succ dfg w parent sig blk ins with
      | none => none
      | some h6 =>
        match each (fun g n => addOtherEdge g n G) h6 srcs with
        | none => none
        | some h7 =>
          match inlineDfg h7 dfg with
          | .ok g => some g
          | _ => none
  | _, _, _, _ => none

/-! ## The rest of the pass -/

/-- Moving the entry block out, normalize_cfgs.rs:190-274. -/
def moveEntry (h : Hugr Ops.Op Meta) (G entry exit dfg w : Nat) : Option (Hugr Ops.Op Meta) :=
  match outputNeighbours h entry, inputNeighbours h entry with
  | [succ], [] => if succ = exit then none else entryOut h G entry succ dfg w
  | _, _ => some h

/-- Moving the block before the exit out, normalize_cfgs.rs:275-333. -/
def moveExit (h : Hugr Ops.Op Meta) (G exit dfg w : Nat) : Option (Hugr Ops.Op Meta) :=
  match exitPred h G exit with
  | some pred => exitOut h G pred exit dfg w
  | none => some h

/-- `normalize_cfg` after nothing was merged, for a control-flow graph that does not become a dataflow graph,
normalize_cfgs.rs:183-339. `d1` and `w1` are the new nodes for the entry block, `d2` and `w2` those for the block
before the exit. -/
def moveBlocks (h : Hugr Ops.Op Meta) (d1 w1 d2 w2 : Nat) : Option (Hugr Ops.Op Meta) :=
  match h.children h.entrypoint with
  | entry :: exit :: _ =>
    match moveEntry h h.entrypoint entry exit d1 w1 with
    | none => none
    | some h1 => moveExit h1 h.entrypoint exit d2 w2
  | _ => none

/-- `normalize_cfg`, normalize_cfgs.rs:161-339, unless blocks are merged or the control-flow graph becomes a dataflow
graph: `normalizeCfg` says when it goes on. -/
def normalizeMoves (h : Hugr Ops.Op Meta) (d1 w1 d2 w2 : Nat) : Option (Hugr Ops.Op Meta) :=
  match normalizeCfg h d1 with
  | .goesOn => moveBlocks h d1 w1 d2 w2
  | _ => none

end Verif.Patch
